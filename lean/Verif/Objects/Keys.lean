import Verif.Objects.Lemmas

namespace Verif.Objects

/-! ## The key listing -/

theorem mem_indexKeys {props : List Entry} {i : Nat} {k : Key} :
    (i, k) ∈ indexKeys props ↔ k ∈ props.map Entry.key ∧ k.arrayIndex = some i := by
  simp only [indexKeys, List.mem_filterMap, List.mem_map, Option.map_eq_some_iff]
  constructor
  · rintro ⟨e, he, j, hj, heq⟩
    cases heq
    exact ⟨⟨e, he, rfl⟩, hj⟩
  · rintro ⟨⟨e, he, rfl⟩, hi⟩
    exact ⟨e, he, i, hi, rfl⟩

theorem mem_plainStringKeys {props : List Entry} {k : Key} :
    k ∈ plainStringKeys props ↔ k ∈ props.map Entry.key ∧ (∃ s, k = .str s) ∧ k.arrayIndex = none := by
  simp only [plainStringKeys, List.mem_filterMap, List.mem_map]
  constructor
  · rintro ⟨e, he, h⟩
    split at h
    · rename_i s hs
      split at h
      · rename_i hn
        cases h
        refine ⟨⟨e, he, rfl⟩, ⟨s, hs⟩, ?_⟩
        rw [hs]; simpa [Key.arrayIndex] using hn
      · cases h
    · cases h
  · rintro ⟨⟨e, he, rfl⟩, ⟨s, hs⟩, hn⟩
    refine ⟨e, he, ?_⟩
    rw [hs] at hn ⊢
    simp only [Key.arrayIndex] at hn
    simp [hn]

theorem mem_symbolKeys {props : List Entry} {k : Key} :
    k ∈ symbolKeys props ↔ k ∈ props.map Entry.key ∧ ∃ id, k = .sym id := by
  simp only [symbolKeys, List.mem_filterMap, List.mem_map]
  constructor
  · rintro ⟨e, he, h⟩
    split at h
    · cases h
    · rename_i id hid; cases h; exact ⟨⟨e, he, rfl⟩, ⟨id, hid⟩⟩
  · rintro ⟨⟨e, he, rfl⟩, ⟨id, hid⟩⟩
    exact ⟨e, he, by rw [hid]⟩

theorem plain_eq_filter (props : List Entry) :
    plainStringKeys props = (props.map Entry.key).filter
      fun k => match k with | .str s => (stringToArrayIndex s).isNone | .sym _ => false := by
  induction props with
  | nil => rfl
  | cons e es ih =>
    simp only [plainStringKeys, List.filterMap_cons, List.map_cons, List.filter_cons] at ih ⊢
    cases hk : e.key with
    | sym => simpa using ih
    | str s =>
      cases hs : stringToArrayIndex s with
      | none => simpa [hs] using ih
      | some i => simpa [hs] using ih

theorem symbol_eq_filter (props : List Entry) :
    symbolKeys props = (props.map Entry.key).filter fun k => match k with | .str _ => false | .sym _ => true := by
  induction props with
  | nil => rfl
  | cons e es ih =>
    simp only [symbolKeys, List.filterMap_cons, List.map_cons, List.filter_cons] at ih ⊢
    cases hk : e.key with
    | sym => simp [ih]
    | str s => simp [ih]

theorem index_eq_filter (props : List Entry) :
    (indexKeys props).map Prod.snd = (props.map Entry.key).filter fun k => k.arrayIndex.isSome := by
  induction props with
  | nil => rfl
  | cons e es ih =>
    simp only [indexKeys, List.filterMap_cons, List.map_cons, List.filter_cons] at ih ⊢
    cases hk : e.key.arrayIndex <;> simp [ih]

theorem insertByIndex_perm (x : Nat × Key) (l : List (Nat × Key)) : (insertByIndex x l).Perm (x :: l) := by
  induction l with
  | nil => exact List.Perm.refl _
  | cons y ys ih =>
    unfold insertByIndex
    split
    · exact List.Perm.refl _
    · exact (List.Perm.cons y ih).trans (List.Perm.swap x y ys)

theorem insertByIndex_sorted (x : Nat × Key) (l : List (Nat × Key)) (h : l.Pairwise fun a b => a.1 ≤ b.1) :
    (insertByIndex x l).Pairwise fun a b => a.1 ≤ b.1 := by
  induction l with
  | nil => simp [insertByIndex]
  | cons y ys ih =>
    rw [List.pairwise_cons] at h
    unfold insertByIndex
    split
    · rename_i hxy
      refine List.Pairwise.cons ?_ (List.Pairwise.cons h.1 h.2)
      intro z hz
      rcases List.mem_cons.1 hz with rfl | hz
      · exact hxy
      · exact Nat.le_trans hxy (h.1 z hz)
    · rename_i hxy
      refine List.Pairwise.cons ?_ (ih h.2)
      intro z hz
      rcases List.mem_cons.1 ((insertByIndex_perm x ys).subset hz) with rfl | hz
      · omega
      · exact h.1 z hz

theorem sortByIndex_perm (l : List (Nat × Key)) : (sortByIndex l).Perm l := by
  induction l with
  | nil => exact List.Perm.refl _
  | cons x xs ih => exact (insertByIndex_perm x _).trans (List.Perm.cons x ih)

theorem sortByIndex_sorted (l : List (Nat × Key)) : (sortByIndex l).Pairwise fun a b => a.1 ≤ b.1 := by
  induction l with
  | nil => exact List.Pairwise.nil
  | cons x xs ih => exact insertByIndex_sorted x _ ih

/-- The sorted index part. -/
def sortedIndex (props : List Entry) : List (Nat × Key) := sortByIndex (indexKeys props)

theorem sortedIndex_perm (props : List Entry) : (sortedIndex props).Perm (indexKeys props) := sortByIndex_perm _

theorem sortedIndex_sorted (props : List Entry) : (sortedIndex props).Pairwise fun a b => a.1 ≤ b.1 :=
  sortByIndex_sorted _

theorem mem_sortedIndex {props : List Entry} {i : Nat} {k : Key} :
    (i, k) ∈ sortedIndex props ↔ k ∈ props.map Entry.key ∧ k.arrayIndex = some i := by
  rw [(sortedIndex_perm props).mem_iff, mem_indexKeys]

theorem ownKeys_eq (o : Obj) :
    o.ownKeys = (sortedIndex o.props).map Prod.snd ++ plainStringKeys o.props ++ symbolKeys o.props := rfl

theorem mem_ownKeys {o : Obj} {k : Key} : k ∈ o.ownKeys ↔ k ∈ o.props.map Entry.key := by
  rw [ownKeys_eq, List.mem_append, List.mem_append, mem_plainStringKeys, mem_symbolKeys, List.mem_map]
  constructor
  · rintro ((⟨⟨i, k'⟩, h, rfl⟩ | h) | h)
    · exact (mem_sortedIndex.1 h).1
    · exact h.1
    · exact h.1
  · intro h
    cases hk : k.arrayIndex with
    | some i => exact .inl (.inl ⟨(i, k), mem_sortedIndex.2 ⟨h, hk⟩, rfl⟩)
    | none =>
      cases k with
      | str s => exact .inl (.inr ⟨h, ⟨s, rfl⟩, rfl⟩)
      | sym id => exact .inr ⟨h, ⟨id, rfl⟩⟩

theorem sortedIndex_nodup {props : List Entry} (h : (props.map Entry.key).Nodup) :
    ((sortedIndex props).map Prod.snd).Nodup := by
  rw [((sortedIndex_perm props).map Prod.snd).nodup_iff, index_eq_filter]
  exact h.filter _

theorem ownKeys_nodup {o : Obj} (h : (o.props.map Entry.key).Nodup) : o.ownKeys.Nodup := by
  rw [ownKeys_eq, List.nodup_append, List.nodup_append]
  refine ⟨⟨sortedIndex_nodup h, ?_, ?_⟩, ?_, ?_⟩
  · rw [plain_eq_filter]; exact h.filter _
  · intro a ha b hb hab
    subst hab
    obtain ⟨⟨i, k⟩, hm, rfl⟩ := List.mem_map.1 ha
    have h1 := (mem_sortedIndex.1 hm).2
    have h2 := (mem_plainStringKeys.1 hb).2.2
    simp only at h2
    rw [h1] at h2; cases h2
  · rw [symbol_eq_filter]; exact h.filter _
  · intro a ha b hb hab
    subst hab
    obtain ⟨_, id, rfl⟩ := mem_symbolKeys.1 hb
    rcases List.mem_append.1 ha with ha | ha
    · obtain ⟨⟨i, k⟩, hm, he⟩ := List.mem_map.1 ha
      simp only at he
      subst he
      have h1 := (mem_sortedIndex.1 hm).2
      cases h1
    · obtain ⟨s, hs⟩ := (mem_plainStringKeys.1 ha).2.1
      cases hs

/-- Index keys appear in strictly ascending order. -/
theorem ownKeys_index_sorted {o : Obj} (h : (o.props.map Entry.key).Nodup) :
    o.ownKeys.Pairwise fun a b => ∀ i j, a.arrayIndex = some i → b.arrayIndex = some j → i < j := by
  rw [ownKeys_eq, List.pairwise_append, List.pairwise_append]
  have hnone : ∀ b ∈ plainStringKeys o.props ++ symbolKeys o.props, b.arrayIndex = none := by
    intro b hb
    rcases List.mem_append.1 hb with hb | hb
    · exact (mem_plainStringKeys.1 hb).2.2
    · obtain ⟨_, id, rfl⟩ := mem_symbolKeys.1 hb; rfl
  have hp : ∀ l : List Key, (∀ b ∈ l, b.arrayIndex = none) →
      l.Pairwise fun a b => ∀ i j, a.arrayIndex = some i → b.arrayIndex = some j → i < j := by
    intro l
    induction l with
    | nil => intro _; exact List.Pairwise.nil
    | cons x xs ih =>
      intro hl
      refine List.Pairwise.cons ?_ (ih fun b hb => hl b (List.mem_cons_of_mem _ hb))
      intro b _ i j hi
      rw [hl x (List.mem_cons_self ..)] at hi; cases hi
  refine ⟨⟨?_, hp _ fun b hb => hnone b (List.mem_append_left _ hb), ?_⟩,
    hp _ fun b hb => hnone b (List.mem_append_right _ hb), ?_⟩
  · have hnd := sortedIndex_nodup h
    rw [List.Nodup, List.pairwise_map] at hnd
    rw [List.pairwise_map]
    refine (List.Pairwise.and (sortedIndex_sorted o.props) hnd).imp_of_mem ?_
    rintro ⟨i, a⟩ ⟨j, b⟩ ha hb ⟨hle, hne⟩ i' j' hi' hj'
    have e1 := (mem_sortedIndex.1 ha).2
    have e2 := (mem_sortedIndex.1 hb).2
    simp only at hle hne hi' hj'
    rw [e1] at hi'; rw [e2] at hj'
    cases hi'; cases hj'
    rcases Nat.lt_or_eq_of_le hle with h | rfl
    · exact h
    · exact absurd (arrayIndex_inj e1 e2) hne
  · intro a _ b hb i j _ hj
    rw [hnone b (List.mem_append_left _ hb)] at hj; cases hj
  · intro a _ b hb i j _ hj
    rw [hnone b (List.mem_append_right _ hb)] at hj; cases hj

end Verif.Objects
