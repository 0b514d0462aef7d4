import Verif.Types.Shapes
/-!
# Stored shapes list each key once
-/

namespace Verif.Types
open Store
open Verif.Harness

variable {H : Hashes}

theorem insertType_shapes {st st' : Store} {k : Kind} {i : Nat} (h : st.insertType H k = some (st', i)) :
    st'.shapes = st.shapes := by
  unfold Store.insertType at h
  split at h
  · cases h
  · cases h; rfl

theorem union_shapes {st st' : Store} {ms : List Nat} {i : Nat} (hi : Core H st) (hk : TypesKnown st ms)
    (h : st.union H ms = some (st', i)) : st'.shapes = st.shapes := by
  rw [union_eq hi hk] at h
  unfold unionOf unionFinish at h
  split at h
  · cases h; rfl
  · split at h
    · cases h; rfl
    · split at h
      · cases h; rfl
      · cases h; rfl
      · split at h
        · cases h; rfl
        · exact insertType_shapes h
      · exact insertType_shapes h

theorem inter_shapes {st st' : Store} {ms : List Nat} {i : Nat} (hi : Core H st) (hk : TypesKnown st ms)
    (h : st.intersection H ms = some (st', i)) : st'.shapes = st.shapes := by
  rw [inter_eq hi hk] at h
  unfold interOf interFinish at h
  split at h
  · cases h; rfl
  · split at h
    · cases h; rfl
    · split at h
      · cases h; rfl
      · split at h
        · cases h; rfl
        · split at h
          · cases h; rfl
          · exact insertType_shapes h

theorem internType_shapes {st st' : Store} {k : Kind} {i : Nat} (hi : Core H st) (hk : KindKnown st k)
    (h : st.internType H k = some (st', i)) : st'.shapes = st.shapes := by
  by_cases hu : ∃ ms, k = .union ms
  · obtain ⟨ms, rfl⟩ := hu
    exact union_shapes hi hk.types h
  · by_cases hn : ∃ ms, k = .inter ms
    · obtain ⟨ms, rfl⟩ := hn
      exact inter_shapes hi hk.types h
    · rw [internType_eq hi hk (fun ms e => hu ⟨ms, e⟩) (fun ms e => hn ⟨ms, e⟩)] at h
      exact insertType_shapes h

theorem mergeProps_shapes : ∀ (ps acc : List Property) (st : Store) (c : Bool) (st' : Store)
    (out : List Property), Inv H st → (∀ p ∈ ps, PropKnown st p) → (∀ p ∈ acc, PropKnown st p) →
    mergeProps H st ps acc c = some (st', out) → st'.shapes = st.shapes
  | [], acc, st, c, st', out, _, _, _, h => by
    simp only [mergeProps, Option.some.injEq, Prod.mk.injEq] at h
    rw [h.1]
  | p :: ps, [], st, c, st', out, hi, hp, ha, h => by
    unfold mergeProps at h
    refine mergeProps_shapes ps [p] st false st' out hi (fun q hq => hp q (List.mem_cons_of_mem _ hq)) ?_ h
    intro q hq
    rw [List.mem_singleton.1 hq]; exact hp p (List.mem_cons_self ..)
  | p :: ps, last :: acc, st, c, st', out, hi, hp, ha, h => by
    unfold mergeProps at h
    have hpp := hp p (List.mem_cons_self ..)
    have hl := ha last (List.mem_cons_self ..)
    split at h
    · split at h
      · cases h
      · rename_i st1 ty he
        have hk : TypesKnown st [last.data.ty, p.data.ty] := by
          intro t ht
          rcases List.mem_cons.1 ht with rfl | ht
          · exact hl.1
          · rw [List.mem_singleton.1 ht]; exact hpp.1
        obtain ⟨h1, h2, h3⟩ := inter_ok hi hk he
        rw [mergeProps_shapes ps _ st1 _ st' out h1
          (fun q hq => (hp q (List.mem_cons_of_mem _ hq)).mono h2) (by
            intro q hq
            rcases List.mem_cons.1 hq with rfl | hq
            · exact ⟨h3, hl.2.mono h2⟩
            · exact (ha q (List.mem_cons_of_mem _ hq)).mono h2) h, inter_shapes hi.core hk he]
    · refine mergeProps_shapes ps (p :: last :: acc) st false st' out hi
        (fun q hq => hp q (List.mem_cons_of_mem _ hq)) ?_ h
      intro q hq
      rcases List.mem_cons.1 hq with rfl | hq
      · exact hpp
      · exact ha q hq

theorem mergeIndexers_shapes : ∀ (xs acc : List Indexer) (st : Store) (st' : Store)
    (out : List Indexer), Inv H st → (∀ p ∈ xs, IndexerKnown st p) → (∀ p ∈ acc, IndexerKnown st p) →
    mergeIndexers H st xs acc = some (st', out) → st'.shapes = st.shapes
  | [], acc, st, st', out, _, _, _, h => by
    simp only [mergeIndexers, Option.some.injEq, Prod.mk.injEq] at h
    rw [h.1]
  | p :: ps, [], st, st', out, hi, hp, ha, h => by
    unfold mergeIndexers at h
    refine mergeIndexers_shapes ps [p] st st' out hi (fun q hq => hp q (List.mem_cons_of_mem _ hq)) ?_ h
    intro q hq
    rw [List.mem_singleton.1 hq]; exact hp p (List.mem_cons_self ..)
  | p :: ps, last :: acc, st, st', out, hi, hp, ha, h => by
    unfold mergeIndexers at h
    have hpp := hp p (List.mem_cons_self ..)
    have hl := ha last (List.mem_cons_self ..)
    split at h
    · split at h
      · cases h
      · rename_i st1 ty he
        have hk : TypesKnown st [last.valueType, p.valueType] := by
          intro t ht
          rcases List.mem_cons.1 ht with rfl | ht
          · exact hl.2
          · rw [List.mem_singleton.1 ht]; exact hpp.2
        obtain ⟨h1, h2, h3⟩ := inter_ok hi hk he
        rw [mergeIndexers_shapes ps _ st1 st' out h1
          (fun q hq => (hp q (List.mem_cons_of_mem _ hq)).mono h2) (by
            intro q hq
            rcases List.mem_cons.1 hq with rfl | hq
            · exact ⟨h2.known hl.1, h3⟩
            · exact (ha q (List.mem_cons_of_mem _ hq)).mono h2) h, inter_shapes hi.core hk he]
    · refine mergeIndexers_shapes ps (p :: last :: acc) st st' out hi
        (fun q hq => hp q (List.mem_cons_of_mem _ hq)) ?_ h
      intro q hq
      rcases List.mem_cons.1 hq with rfl | hq
      · exact hpp
      · exact ha q hq

/-- The parts of a shape are in the store. -/
theorem shape_parts {st : Store} {s : Shape} (hk : ShapeKnown st s) :
    (∀ p ∈ s.properties, PropKnown st p) ∧ ∀ x ∈ s.indexers, IndexerKnown st x :=
  ⟨fun p hp => ⟨hk.types _ (List.mem_append_left _ (List.mem_map.2 ⟨p, hp, rfl⟩)), hk.keys p hp⟩,
    fun x hx => ⟨hk.types _ (List.mem_append_right _ (List.mem_flatMap.2 ⟨x, hx, by simp⟩)),
      hk.types _ (List.mem_append_right _ (List.mem_flatMap.2 ⟨x, hx, by simp⟩))⟩⟩

theorem internShape_shapes {st st' : Store} {s : Shape} {i : Nat} (hi : Inv H st)
    (hk : ShapeKnown st s) (h : st.internShape H s = some (st', i)) :
    ∀ j w, st'.shapes.lookup j = some w → st.shapes.lookup j = some w ∨ j = i := by
  rw [internShape_eq hi.core hk] at h
  unfold shapeOf' at h
  obtain ⟨hprop, hidx⟩ := shape_parts hk
  split at h
  · cases h
  · rename_i st1 props h1
    simp only at h
    split at h
    · cases h
    · rename_i st2 idx h2
      split at h
      · cases h
      · rename_i m j h3
        simp only [Option.some.injEq, Prod.mk.injEq] at h
        obtain ⟨rfl, rfl⟩ := h
        have hp' := fun p hp => hprop p ((sortBy_perm (cmp := fun a b => st.cmpKey a.key b.key) _).mem_iff.1 hp)
        obtain ⟨a1, a2, a3⟩ := mergeProps_ok _ _ _ _ _ _ hi hp' (fun p hp => absurd hp List.not_mem_nil) h1
        have e1 := mergeProps_shapes _ _ _ _ _ _ hi hp' (fun p hp => absurd hp List.not_mem_nil) h1
        have hx' := fun p hp =>
          (hidx p ((sortBy_perm (cmp := cmpIndexer st1.typeCmp) _).mem_iff.1 hp)).mono a2
        obtain ⟨b1, b2, b3⟩ := mergeIndexers_ok _ _ _ _ _ a1 hx' (fun p hp => absurd hp List.not_mem_nil) h2
        have e2 := mergeIndexers_shapes _ _ _ _ _ a1 hx' (fun p hp => absurd hp List.not_mem_nil) h2
        intro x w hw
        rcases lookup_ins (insert_spec b1.core.shapes h3).2.2.2 hw with hw | ⟨h, _⟩
        · rw [e2, e1] at hw; exact .inl hw
        · exact .inr h

theorem insertAll_shapes : ∀ (ks : List Kind) (st st' : Store) (is : List Nat),
    insertAll H st ks = some (st', is) → st'.shapes = st.shapes
  | [], st, st', is, h => by
    simp only [insertAll, Option.some.injEq, Prod.mk.injEq] at h
    rw [h.1]
  | k :: ks, st, st', is, h => by
    unfold insertAll at h
    split at h
    · cases h
    · rename_i st1 i e
      split at h
      · cases h
      · rename_i st2 js e2
        simp only [Option.some.injEq, Prod.mk.injEq] at h
        rw [← h.1, insertAll_shapes ks _ _ _ e2, insertType_shapes e]

/-- Every stored shape lists a property key once and a key type of index signatures once. -/
def KeysOnce (st : Store) : Prop :=
  ∀ i s, st.shapes.lookup i = some s →
    (s.properties.map Property.key).Nodup ∧ (s.indexers.map Indexer.keyType).Nodup

theorem reachable_keys {st : Store} (h : Reachable H st) : KeysOnce st := by
  induction h with
  | new h =>
    intro i s hs
    unfold Store.new at h
    split at h
    · rename_i he
      simp only [Option.some.injEq] at h
      subst h
      rw [show _ = _ from insertAll_shapes _ _ _ _ he] at hs
      cases hs
    · cases h
  | @op st st' o i hr hk h ih =>
    have hi := reachable_inv hr
    have same : st'.shapes = st.shapes → KeysOnce st' := fun e j s hs => ih j s (by rw [← e]; exact hs)
    cases o with
    | name s =>
      refine same ?_
      change st.internName H s = _ at h
      unfold Store.internName at h
      split at h
      · cases h
      · cases h; rfl
    | type k => exact same (internType_shapes hi.core hk h)
    | signature s =>
      refine same ?_
      change st.internSignature H s = _ at h
      rw [internSignature_eq hi.core hk] at h
      obtain ⟨⟨m, j⟩, he, h⟩ := Option.map_eq_some_iff.1 h
      simp only [Prod.mk.injEq] at h
      obtain ⟨rfl, rfl⟩ := h
      rfl
    | shape s =>
      intro j w hw
      rcases internShape_shapes hi hk h j w hw with hj | rfl
      · exact ih j w hj
      · obtain ⟨r, h1, h2, _, h3, _⟩ := C68_keys hr s _ hk h
        rw [hw] at h1
        cases h1
        exact ⟨h2, h3⟩
    | object sh =>
      refine same ?_
      change st.internObject H sh = _ at h
      unfold Store.internObject at h
      split at h
      · cases h
      · cases h; rfl
    | union ms => exact same (union_shapes hi.core hk h)
    | inter ms => exact same (inter_shapes hi.core hk h)
    | canon t =>
      refine same ?_
      change st.canon H t = _ at h
      rw [canon_id hi.core hk] at h
      cases h; rfl

/-! ## Shapes that list each key once are interned as they are -/

theorem mergeProps_once : ∀ (ps acc : List Property) (st : Store) (c : Bool),
    ((acc.reverse ++ ps).map Property.key).Nodup →
    mergeProps H st ps acc c = some (st, acc.reverse ++ ps)
  | [], acc, st, c, _ => by simp [mergeProps]
  | p :: ps, [], st, c, h => by
    unfold mergeProps
    rw [mergeProps_once ps [p] st false (by simpa using h)]
    rfl
  | p :: ps, last :: acc, st, c, h => by
    unfold mergeProps
    have hne : last.key ≠ p.key := by
      simp only [List.reverse_cons, List.append_assoc, List.map_append, List.map_cons] at h
      have := (List.nodup_append.1 h).2.1
      simp at this
      exact this.1.1
    rw [if_neg hne, mergeProps_once ps (p :: last :: acc) st false (by simpa using h)]
    simp

theorem mergeIndexers_once : ∀ (ps acc : List Indexer) (st : Store),
    ((acc.reverse ++ ps).map Indexer.keyType).Nodup →
    mergeIndexers H st ps acc = some (st, acc.reverse ++ ps)
  | [], acc, st, _ => by simp [mergeIndexers]
  | p :: ps, [], st, h => by
    unfold mergeIndexers
    rw [mergeIndexers_once ps [p] st (by simpa using h)]
    rfl
  | p :: ps, last :: acc, st, h => by
    unfold mergeIndexers
    have hne : last.keyType ≠ p.keyType := by
      simp only [List.reverse_cons, List.append_assoc, List.map_append, List.map_cons] at h
      have := (List.nodup_append.1 h).2.1
      simp at this
      exact this.1.1
    rw [if_neg hne, mergeIndexers_once ps (p :: last :: acc) st (by simpa using h)]
    simp

theorem internShape_once {st st' : Store} {s : Shape} {i : Nat} (hi : Inv H st)
    (hk : ShapeKnown st s) (hp : (s.properties.map Property.key).Nodup)
    (hx : (s.indexers.map Indexer.keyType).Nodup) (h : st.internShape H s = some (st', i)) :
    ∃ r, st'.shapes.lookup i = some r ∧ r.properties.Perm s.properties ∧ r.indexers.Perm s.indexers ∧
      (∀ o, o ∈ r.callSigs ↔ o ∈ s.callSigs) ∧ ∀ o, o ∈ r.constructSigs ↔ o ∈ s.constructSigs := by
  rw [internShape_eq hi.core hk] at h
  unfold shapeOf' at h
  have pp := sortBy_perm (cmp := fun a b => st.cmpKey a.key b.key) s.properties
  have px := sortBy_perm (cmp := cmpIndexer st.typeCmp) s.indexers
  rw [mergeProps_once _ [] st false (by
    rw [List.reverse_nil, List.nil_append]; exact (pp.map _).nodup_iff.2 hp)] at h
  simp only [List.reverse_nil, List.nil_append] at h
  rw [mergeIndexers_once _ [] st (by
    rw [List.reverse_nil, List.nil_append]; exact (px.map _).nodup_iff.2 hx)] at h
  simp only [List.reverse_nil, List.nil_append] at h
  split at h
  · cases h
  · rename_i m j h3
    simp only [Option.some.injEq, Prod.mk.injEq] at h
    obtain ⟨rfl, rfl⟩ := h
    exact ⟨_, (insert_spec hi.core.shapes h3).2.2.1, pp, px, fun o => mem_overloads, fun o => mem_overloads⟩

end Verif.Types
