import Verif.Types.Theorems
/-!
# C68: shapes do not depend on the order in which members are listed
-/

namespace Verif.Types
open Store
open Verif.Harness

/-! ## Keys -/

theorem name_inj {st : Store} (hn : NamesOk st.names) {a b : Nat} (ha : (st.names.byId.lookup a).isSome)
    (hb : (st.names.byId.lookup b).isSome) (h : st.name a = st.name b) : a = b := by
  obtain ⟨x, hx⟩ := Option.isSome_iff_exists.1 ha
  obtain ⟨y, hy⟩ := Option.isSome_iff_exists.1 hb
  unfold Store.name at h
  rw [hx, hy] at h
  simp only [Option.getD_some] at h
  subst h
  have h1 := hn.back _ _ hx
  have h2 := hn.back _ _ hy
  rw [h1] at h2
  exact Option.some.inj h2

theorem cmpKey_eq {st : Store} (hn : NamesOk st.names) {a b : PropKey} (ha : KeyKnown st a)
    (hb : KeyKnown st b) : st.cmpKey a b = .eq ↔ a = b := by
  unfold Store.cmpKey
  rw [then_eq, Nat.compare_eq_eq]
  cases a <;> cases b <;> simp only [keyRank, KeyKnown] at ha hb ⊢ <;>
    simp only [PropKey.string.injEq, PropKey.symbol.injEq, PropKey.number.injEq, cmpStr_eq, true_and,
      reduceCtorEq, iff_false, not_and, Nat.reduceEqDiff, false_and, not_true_eq_false, false_implies,
      implies_true, IsEmpty.forall_iff]
  · exact ⟨name_inj hn ha hb, fun h => by rw [h]⟩
  · exact Std.LawfulEqCmp.compare_eq_iff_eq
  · exact ⟨name_inj hn ha hb, fun h => by rw [h]⟩

theorem allPairs_mem {α : Type} {r : α → α → Prop} {l₁ l₂ : List α} (hp : AllPairs r l₁ l₂)
    (h : ∀ a ∈ l₁, ∀ b ∈ l₂, r a b → a = b) : l₁ = l₂ := by
  induction hp with
  | nil => rfl
  | cons hab _ ih =>
    rw [h _ (List.mem_cons_self ..) _ (List.mem_cons_self ..) hab,
      ih fun a ha b hb => h a (List.mem_cons_of_mem _ ha) b (List.mem_cons_of_mem _ hb)]

/-- Sorting a permutation gives the same list if elements that compare equal are equal. -/
theorem sortBy_perm_eq {α : Type} {cmp : α → α → Ordering} (h : TotalPreorder cmp) {l₁ l₂ : List α}
    (hp : l₁.Perm l₂) (he : ∀ a ∈ l₁, ∀ b ∈ l₁, cmp a b = .eq → a = b) :
    sortBy cmp l₁ = sortBy cmp l₂ :=
  allPairs_mem (sortBy_congr h hp) fun a ha b hb e =>
    he a ((sortBy_perm _).mem_iff.1 ha) b (hp.mem_iff.2 ((sortBy_perm _).mem_iff.1 hb)) e

theorem overloads_eq {st : Store} {a b : List Nat} (h : ∀ s, s ∈ a ↔ s ∈ b) :
    sortBy st.sigCmp (stableDedup a) = sortBy st.sigCmp (stableDedup b) := by
  refine (sortBy_eq_iff (tp_sigCmp st) (sigCmp_eq st)).2 ?_
  refine (List.perm_ext_iff_of_nodup nodup_dedupFrom nodup_dedupFrom).2 fun s => ?_
  show s ∈ stableDedup a ↔ s ∈ stableDedup b
  rw [mem_stableDedup, mem_stableDedup, h]

theorem nodup_key_eq : ∀ {ps : List Property}, (ps.map Property.key).Nodup →
    ∀ a ∈ ps, ∀ b ∈ ps, a.key = b.key → a = b
  | [], _, a, ha, _, _, _ => absurd ha List.not_mem_nil
  | p :: ps, hn, a, ha, b, hb, e => by
    rw [List.map_cons, List.nodup_cons] at hn
    rcases List.mem_cons.1 ha with ha | ha <;> rcases List.mem_cons.1 hb with hb | hb
    · rw [ha, hb]
    · rw [ha] at e
      exact absurd (List.mem_map.2 ⟨b, hb, e.symm⟩) hn.1
    · rw [hb] at e
      exact absurd (List.mem_map.2 ⟨a, ha, e⟩) hn.1
    · exact nodup_key_eq hn.2 a ha b hb e

theorem indexer_eq {st : Store} (a b : Indexer) : cmpIndexer st.typeCmp a b = .eq ↔ a = b := by
  unfold cmpIndexer
  rw [then_eq, then_eq, typeCmp_eq, typeCmp_eq, cmpBool_eq]
  cases a; cases b
  simp only [Indexer.mk.injEq]

/-- **C68** (the part that holds). Two shapes with the same members — properties with different keys,
any number of index signatures, and overloads, in any order and with repeated overloads — are interned
as the same shape. Missing: properties listed under the same key; there the order matters
(`C68_order_violated`). -/
theorem C68_partial {H : Hashes} {st : Store} (h : Reachable H st) (s s' : Shape) (hk : ShapeKnown st s)
    (hp : s.properties.Perm s'.properties) (hd : (s.properties.map Property.key).Nodup)
    (hc : ∀ o, o ∈ s.callSigs ↔ o ∈ s'.callSigs) (hn : ∀ o, o ∈ s.constructSigs ↔ o ∈ s'.constructSigs)
    (hx : s.indexers.Perm s'.indexers) : st.internShape H s = st.internShape H s' := by
  have hi := (reachable_inv h).core
  have hk' : ShapeKnown st s' := by
    refine ⟨?_, ?_, fun p hp' => hk.keys p (hp.mem_iff.2 hp')⟩
    · intro t ht
      refine hk.types t ?_
      unfold shapeTypes at ht ⊢
      simp only [List.mem_append, List.mem_map, List.mem_flatMap] at ht ⊢
      rcases ht with ⟨p, hp', e⟩ | ⟨x, hx', e⟩
      · exact .inl ⟨p, hp.mem_iff.2 hp', e⟩
      · exact .inr ⟨x, hx.mem_iff.2 hx', e⟩
    · intro o ho
      refine hk.sigs o ?_
      unfold shapeSigs at ho ⊢
      rw [List.mem_append, ← hc, ← hn, ← List.mem_append] at ho
      exact ho
  rw [internShape_eq hi hk, internShape_eq hi hk']
  unfold shapeOf'
  have e1 : sortBy (fun a b => st.cmpKey a.key b.key) s.properties =
      sortBy (fun a b => st.cmpKey a.key b.key) s'.properties :=
    sortBy_perm_eq (tp_on tp_key Property.key) hp fun a ha b hb e =>
      nodup_key_eq hd a ha b hb ((cmpKey_eq hi.names (hk.keys a ha) (hk.keys b hb)).1 e)
  rw [e1]
  cases mergeProps H st (sortBy (fun a b => st.cmpKey a.key b.key) s'.properties) [] false with
  | none => rfl
  | some r =>
    obtain ⟨st1, props⟩ := r
    simp only
    rw [overloads_eq hc, overloads_eq hn, (sortBy_eq_iff (tp_indexer (tp_typeCmp st1)) indexer_eq).2 hx]

/-! ## One property for each key -/

/-- `mergeProps` on keys. -/
theorem mergeProps_keys {H : Hashes} {cmp : PropKey → PropKey → Ordering} (tp : TotalPreorder cmp) :
    ∀ (ps acc : List Property) (st : Store) (c : Bool) (st' : Store) (out : List Property),
    (∀ p ∈ acc ++ ps, ∀ q ∈ acc ++ ps, cmp p.key q.key = .eq → p.key = q.key) →
    ps.Pairwise (fun a b => cmp a.key b.key ≠ .gt) →
    acc.Pairwise (fun a b => cmp b.key a.key = .lt) →
    (∀ a ∈ acc, ∀ p ∈ ps, cmp a.key p.key ≠ .gt) →
    mergeProps H st ps acc c = some (st', out) →
    out.Pairwise (fun a b => cmp a.key b.key = .lt) ∧
      ∀ k, k ∈ out.map Property.key ↔ k ∈ (acc ++ ps).map Property.key
  | [], acc, st, c, st', out, _, _, ha, _, h => by
    simp only [mergeProps, Option.some.injEq, Prod.mk.injEq] at h
    obtain ⟨rfl, rfl⟩ := h
    exact ⟨List.pairwise_reverse.2 ha, fun k => by simp⟩
  | p :: ps, [], st, c, st', out, he, hp, ha, hap, h => by
    unfold mergeProps at h
    rw [List.pairwise_cons] at hp
    have := mergeProps_keys tp ps [p] st false st' out (by simpa using he) hp.2 (by simp)
      (by simpa using hp.1) h
    simpa using this
  | p :: ps, last :: acc, st, c, st', out, he, hp, ha, hap, h => by
    unfold mergeProps at h
    rw [List.pairwise_cons] at hp ha
    split at h
    · rename_i hkey
      split at h
      · cases h
      · rename_i st1 ty hi
        obtain ⟨r1, r2⟩ := mergeProps_keys tp ps _ st1 _ st' out (by
          intro x hx y hy
          have hx' : ∃ x' ∈ last :: acc ++ p :: ps, x'.key = x.key := by
            simp only [List.mem_append, List.mem_cons] at hx
            rcases hx with (hx | hx) | hx
            · exact ⟨last, by simp, by rw [hx]⟩
            · exact ⟨x, by simp [hx], rfl⟩
            · exact ⟨x, by simp [hx], rfl⟩
          have hy' : ∃ y' ∈ last :: acc ++ p :: ps, y'.key = y.key := by
            simp only [List.mem_append, List.mem_cons] at hy
            rcases hy with (hy | hy) | hy
            · exact ⟨last, by simp, by rw [hy]⟩
            · exact ⟨y, by simp [hy], rfl⟩
            · exact ⟨y, by simp [hy], rfl⟩
          obtain ⟨x', hx1, hx2⟩ := hx'
          obtain ⟨y', hy1, hy2⟩ := hy'
          rw [← hx2, ← hy2]
          exact he x' hx1 y' hy1) hp.2
          (by exact List.pairwise_cons.2 ⟨fun b hb => ha.1 b hb, ha.2⟩)
          (by
            intro a ha' q hq
            rcases List.mem_cons.1 ha' with ha' | ha'
            · rw [ha']
              exact hap last (List.mem_cons_self ..) q (List.mem_cons_of_mem _ hq)
            · exact hap a (List.mem_cons_of_mem _ ha') q (List.mem_cons_of_mem _ hq)) h
        refine ⟨r1, fun k => ?_⟩
        rw [r2]
        simp only [List.map_append, List.map_cons, List.mem_append, List.mem_cons, hkey]
        grind
    · rename_i hkey
      obtain ⟨r1, r2⟩ := mergeProps_keys tp ps (p :: last :: acc) st false st' out (by
        intro x hx y hy
        refine he x ?_ y ?_
        · simp only [List.mem_append, List.mem_cons] at hx ⊢; grind
        · simp only [List.mem_append, List.mem_cons] at hy ⊢; grind) hp.2
        (by
          have hlt : ∀ a ∈ last :: acc, cmp a.key p.key = .lt := by
            have hl : cmp last.key p.key = .lt := by
              have h1 := hap last (List.mem_cons_self ..) p (List.mem_cons_self ..)
              cases e : cmp last.key p.key with
              | lt => rfl
              | gt => exact absurd e h1
              | eq => exact absurd (he last (by simp) p (by simp) e) hkey
            intro a ha'
            rcases List.mem_cons.1 ha' with rfl | ha'
            · exact hl
            · have h1 := hap a (List.mem_cons_of_mem _ ha') p (List.mem_cons_self ..)
              cases e : cmp a.key p.key with
              | lt => rfl
              | gt => exact absurd e h1
              | eq =>
                have hk := he a (by simp [ha']) p (by simp) e
                have h2 := ha.1 a ha'
                rw [hk, tp.swap, hl] at h2
                cases h2
          exact List.pairwise_cons.2 ⟨hlt, List.pairwise_cons.2 ⟨ha.1, ha.2⟩⟩)
        (by
          intro a ha' q hq
          rcases List.mem_cons.1 ha' with rfl | ha'
          · exact hp.1 q hq
          · exact hap a ha' q (List.mem_cons_of_mem _ hq)) h
      refine ⟨r1, fun k => ?_⟩
      rw [r2]
      simp only [List.map_append, List.map_cons, List.mem_append, List.mem_cons]
      grind

/-- `mergeIndexers` on key types. -/
theorem mergeIndexers_keys {H : Hashes} {cmp : Nat → Nat → Ordering} (tp : TotalPreorder cmp)
    (he : ∀ a b, cmp a b = .eq → a = b) :
    ∀ (ps acc : List Indexer) (st : Store) (st' : Store) (out : List Indexer),
    ps.Pairwise (fun a b => cmp a.keyType b.keyType ≠ .gt) →
    acc.Pairwise (fun a b => cmp b.keyType a.keyType = .lt) →
    (∀ a ∈ acc, ∀ p ∈ ps, cmp a.keyType p.keyType ≠ .gt) →
    mergeIndexers H st ps acc = some (st', out) →
    out.Pairwise (fun a b => cmp a.keyType b.keyType = .lt) ∧
      ∀ k, k ∈ out.map Indexer.keyType ↔ k ∈ (acc ++ ps).map Indexer.keyType
  | [], acc, st, st', out, _, ha, _, h => by
    simp only [mergeIndexers, Option.some.injEq, Prod.mk.injEq] at h
    obtain ⟨rfl, rfl⟩ := h
    exact ⟨List.pairwise_reverse.2 ha, fun k => by simp⟩
  | p :: ps, [], st, st', out, hp, ha, hap, h => by
    unfold mergeIndexers at h
    rw [List.pairwise_cons] at hp
    have := mergeIndexers_keys tp he ps [p] st st' out hp.2 (by simp) (by simpa using hp.1) h
    simpa using this
  | p :: ps, last :: acc, st, st', out, hp, ha, hap, h => by
    unfold mergeIndexers at h
    rw [List.pairwise_cons] at hp ha
    split at h
    · rename_i hkey
      split at h
      · cases h
      · rename_i st1 ty hi
        obtain ⟨r1, r2⟩ := mergeIndexers_keys tp he ps _ st1 st' out hp.2
          (by exact List.pairwise_cons.2 ⟨fun b hb => ha.1 b hb, ha.2⟩)
          (by
            intro a ha' q hq
            rcases List.mem_cons.1 ha' with ha' | ha'
            · rw [ha']
              exact hap last (List.mem_cons_self ..) q (List.mem_cons_of_mem _ hq)
            · exact hap a (List.mem_cons_of_mem _ ha') q (List.mem_cons_of_mem _ hq)) h
        refine ⟨r1, fun k => ?_⟩
        rw [r2]
        simp only [List.map_append, List.map_cons, List.mem_append, List.mem_cons, hkey]
        grind
    · rename_i hkey
      obtain ⟨r1, r2⟩ := mergeIndexers_keys tp he ps (p :: last :: acc) st st' out hp.2
        (by
          have hl : cmp last.keyType p.keyType = .lt := by
            have h1 := hap last (List.mem_cons_self ..) p (List.mem_cons_self ..)
            cases e : cmp last.keyType p.keyType with
            | lt => rfl
            | gt => exact absurd e h1
            | eq => exact absurd (he _ _ e) hkey
          have hlt : ∀ a ∈ last :: acc, cmp a.keyType p.keyType = .lt := by
            intro a ha'
            rcases List.mem_cons.1 ha' with rfl | ha'
            · exact hl
            · have h1 := hap a (List.mem_cons_of_mem _ ha') p (List.mem_cons_self ..)
              cases e : cmp a.keyType p.keyType with
              | lt => rfl
              | gt => exact absurd e h1
              | eq =>
                have hk := he _ _ e
                have h2 := ha.1 a ha'
                rw [hk, tp.swap, hl] at h2
                cases h2
          exact List.pairwise_cons.2 ⟨hlt, List.pairwise_cons.2 ⟨ha.1, ha.2⟩⟩)
        (by
          intro a ha' q hq
          rcases List.mem_cons.1 ha' with rfl | ha'
          · exact hp.1 q hq
          · exact hap a ha' q (List.mem_cons_of_mem _ hq)) h
      refine ⟨r1, fun k => ?_⟩
      rw [r2]
      simp only [List.map_append, List.map_cons, List.mem_append, List.mem_cons]
      grind

/-- **C68.** The interned shape has exactly one property for each key, and exactly one index signature
for each key type, that was listed. -/
theorem C68_keys {H : Hashes} {st st' : Store} (h : Reachable H st) (s : Shape) (i : Nat)
    (hk : ShapeKnown st s) (hs : st.internShape H s = some (st', i)) :
    ∃ r, st'.shapes.lookup i = some r ∧ (r.properties.map Property.key).Nodup ∧
      (∀ k, k ∈ r.properties.map Property.key ↔ k ∈ s.properties.map Property.key) ∧
      (r.indexers.map Indexer.keyType).Nodup ∧
      ∀ k, k ∈ r.indexers.map Indexer.keyType ↔ k ∈ s.indexers.map Indexer.keyType := by
  have hinv := reachable_inv h
  rw [internShape_eq hinv.core hk] at hs
  unfold shapeOf' at hs
  split at hs
  · cases hs
  · rename_i st1 props h1
    simp only at hs
    split at hs
    · cases hs
    · rename_i st2 idx h2
      split at hs
      · cases hs
      · rename_i m j h3
        simp only [Option.some.injEq, Prod.mk.injEq] at hs
        obtain ⟨rfl, rfl⟩ := hs
        have hprop : ∀ p ∈ s.properties, PropKnown st p := fun p hp =>
          ⟨hk.types _ (List.mem_append_left _ (List.mem_map.2 ⟨p, hp, rfl⟩)), hk.keys p hp⟩
        have hidx : ∀ x ∈ s.indexers, IndexerKnown st x := fun x hx =>
          ⟨hk.types _ (List.mem_append_right _ (List.mem_flatMap.2 ⟨x, hx, by simp⟩)),
            hk.types _ (List.mem_append_right _ (List.mem_flatMap.2 ⟨x, hx, by simp⟩))⟩
        obtain ⟨a1, a2, a3⟩ := mergeProps_ok _ _ _ _ _ _ hinv
          (fun p hp => hprop p ((sortBy_perm _).mem_iff.1 hp)) (fun p hp => absurd hp List.not_mem_nil) h1
        obtain ⟨b1, b2, b3⟩ := mergeIndexers_ok _ _ _ _ _ a1
          (fun p hp => (hidx p ((sortBy_perm _).mem_iff.1 hp)).mono a2)
          (fun p hp => absurd hp List.not_mem_nil) h2
        refine ⟨_, (insert_spec b1.core.shapes h3).2.2.1, ?_⟩
        have tp : TotalPreorder st.cmpKey := tp_key
        obtain ⟨c1, c2⟩ := mergeProps_keys tp _ _ _ _ _ _ (by
          intro p hp q hq e
          rw [List.nil_append, (sortBy_perm _).mem_iff] at hp hq
          exact (cmpKey_eq hinv.core.names (hk.keys p hp) (hk.keys q hq)).1 e)
          (sortBy_sorted (tp_on tp Property.key) _) .nil (fun a ha => absurd ha List.not_mem_nil) h1
        have tp1 : TotalPreorder st1.typeCmp := tp_typeCmp st1
        obtain ⟨d1, d2⟩ := mergeIndexers_keys tp1 (fun a b e => (typeCmp_eq _ _ _).1 e) _ _ _ _ _ (by
          refine (sortBy_sorted (tp_indexer tp1) _).imp ?_
          intro a b e hab
          refine e ?_
          unfold cmpIndexer
          rw [hab]; rfl)
          .nil (fun a ha => absurd ha List.not_mem_nil) h2
        refine ⟨?_, ?_, ?_, ?_⟩
        · refine List.pairwise_map.2 (c1.imp ?_)
          intro a b e hab
          rw [hab, tp.refl] at e
          cases e
        · intro k
          rw [c2, List.nil_append]
          exact ((sortBy_perm _).map Property.key).mem_iff
        · refine List.pairwise_map.2 (d1.imp ?_)
          intro a b e hab
          rw [hab, tp1.refl] at e
          cases e
        · intro k
          rw [d2, List.nil_append]
          exact ((sortBy_perm _).map Indexer.keyType).mem_iff

/-! ## Examples, and what does not hold -/

/-- A property under the numeric key `k`, of type `boolean`. -/
def prop (k : Int) (origin : Option Nat) : Property :=
  ⟨.number k, ⟨6, false, false, none, false, origin, none⟩⟩

theorem known_props {ps : List Property} (h : ∀ p ∈ ps, p.data.ty = 6 ∧ ∃ k, p.key = .number k) :
    ShapeKnown w0 ⟨ps, [], [], []⟩ := by
  refine ⟨?_, fun s hs => absurd hs List.not_mem_nil, ?_⟩
  · intro t ht
    have : t = 6 := by
      unfold shapeTypes at ht
      simp only [List.flatMap_nil, List.append_nil, List.mem_map] at ht
      obtain ⟨p, hp, rfl⟩ := ht
      exact (h p hp).1
    rw [this]; decide +kernel
  · intro p hp
    obtain ⟨k, hk⟩ := (h p hp).2
    rw [hk]; trivial

example : ShapeKnown w0 ⟨[prop 1 none, prop 0 none], [], [], []⟩ ∧
    [prop 1 none, prop 0 none].Perm [prop 0 none, prop 1 none] ∧
    ([prop 1 none, prop 0 none].map Property.key).Nodup := by
  refine ⟨known_props ?_, List.Perm.swap .., by decide⟩
  intro p hp
  simp only [List.mem_cons, List.not_mem_nil, or_false] at hp
  rcases hp with rfl | rfl <;> exact ⟨rfl, _, rfl⟩

example : (w0.internShape hashes ⟨[prop 1 none, prop 0 none], [], [], []⟩).map Prod.snd = some 0 := by
  decide +kernel

/-- **C68 fails:** three properties under the same key, with origins 1, 2, 1 in one order and 1, 1, 2 in
the other, are merged into different shapes. -/
theorem C68_order_violated : ∃ (H : Hashes) (st : Store) (s s' : Shape) (i j : Nat) (st1 st2 : Store),
    Reachable H st ∧ ShapeKnown st s ∧ s.properties.Perm s'.properties ∧ s.callSigs = s'.callSigs ∧
    s.constructSigs = s'.constructSigs ∧ s.indexers = s'.indexers ∧
    st.internShape H s = some (st1, i) ∧ st1.internShape H s' = some (st2, j) ∧ i ≠ j := by
  have key : w0.internShape hashes ⟨[prop 0 (some 1), prop 0 (some 2), prop 0 (some 1)], [], [], []⟩ =
      some (after w0 (.shape ⟨[prop 0 (some 1), prop 0 (some 2), prop 0 (some 1)], [], [], []⟩), 0) ∧
    (after w0 (.shape ⟨[prop 0 (some 1), prop 0 (some 2), prop 0 (some 1)], [], [], []⟩)).internShape
      hashes ⟨[prop 0 (some 1), prop 0 (some 1), prop 0 (some 2)], [], [], []⟩ =
      some (after (after w0 (.shape ⟨[prop 0 (some 1), prop 0 (some 2), prop 0 (some 1)], [], [], []⟩))
        (.shape ⟨[prop 0 (some 1), prop 0 (some 1), prop 0 (some 2)], [], [], []⟩), 1) := by
    decide +kernel
  refine ⟨hashes, w0, ⟨[prop 0 (some 1), prop 0 (some 2), prop 0 (some 1)], [], [], []⟩,
    ⟨[prop 0 (some 1), prop 0 (some 1), prop 0 (some 2)], [], [], []⟩, 0, 1, _, _, reach_w0, known_props ?_, ?_, rfl, rfl, rfl, key.1, key.2,
    by decide⟩
  · intro p hp
    simp only [List.mem_cons, List.not_mem_nil, or_false] at hp
    rcases hp with rfl | rfl | rfl <;> exact ⟨rfl, _, rfl⟩
  · exact (List.Perm.cons _ (List.Perm.swap ..))

end Verif.Types
