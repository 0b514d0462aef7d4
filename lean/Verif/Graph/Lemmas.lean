import Verif.Graph.Spec
/-!
# Lemmas about graphs
-/

namespace Verif.Graph

/-! ## Sorting and sets -/

theorem mem_insertSorted {x y : Nat} : ∀ {l : List Nat}, y ∈ insertSorted x l ↔ y = x ∨ y ∈ l
  | [] => by simp [insertSorted]
  | z :: zs => by
    simp only [insertSorted]
    split
    · simp
    · simp only [List.mem_cons, mem_insertSorted (l := zs)]
      constructor
      · rintro (h | h | h)
        · exact .inr (.inl h)
        · exact .inl h
        · exact .inr (.inr h)
      · rintro (h | h | h)
        · exact .inr (.inl h)
        · exact .inl h
        · exact .inr (.inr h)

theorem mem_sortLabels {y : Nat} : ∀ {l : List Nat}, y ∈ sortLabels l ↔ y ∈ l
  | [] => by simp [sortLabels]
  | z :: zs => by simp [sortLabels, mem_insertSorted, mem_sortLabels (l := zs)]

theorem insertSorted_le {x : Nat} : ∀ {l : List Nat},
    l.Pairwise (fun a b : Nat => a ≤ b) → (insertSorted x l).Pairwise (fun a b : Nat => a ≤ b)
  | [], _ => by simp [insertSorted]
  | z :: zs, h => by
    simp only [insertSorted]
    rw [List.pairwise_cons] at h
    split
    · rename_i hle
      refine List.pairwise_cons.2 ⟨?_, List.pairwise_cons.2 h⟩
      intro a ha
      rcases List.mem_cons.1 ha with rfl | ha
      · exact hle
      · exact Nat.le_trans hle (h.1 a ha)
    · rename_i hle
      refine List.pairwise_cons.2 ⟨?_, insertSorted_le h.2⟩
      intro a ha
      rcases mem_insertSorted.1 ha with rfl | ha
      · omega
      · exact h.1 a ha

theorem sortLabels_le : ∀ {l : List Nat}, (sortLabels l).Pairwise (fun a b : Nat => a ≤ b)
  | [] => by simp [sortLabels]
  | z :: zs => by simp only [sortLabels]; exact insertSorted_le sortLabels_le

theorem insertSorted_perm {x : Nat} : ∀ {l : List Nat}, (insertSorted x l).Perm (x :: l)
  | [] => by simp [insertSorted]
  | z :: zs => by
    simp only [insertSorted]
    split
    · exact .refl _
    · exact (List.Perm.cons z insertSorted_perm).trans (List.Perm.swap x z zs)

theorem sortLabels_perm : ∀ {l : List Nat}, (sortLabels l).Perm l
  | [] => by simp [sortLabels]
  | z :: zs => by
    simp only [sortLabels]
    exact insertSorted_perm.trans (List.Perm.cons z sortLabels_perm)

theorem mem_setInsert {s : List Nat} {x y : Nat} : y ∈ setInsert s x ↔ y ∈ s ∨ y = x := by
  simp only [setInsert]
  split
  · rename_i h
    constructor
    · exact .inl
    · rintro (h' | rfl)
      · exact h'
      · exact h
  · simp

theorem nodup_setInsert {s : List Nat} {x : Nat} (h : s.Nodup) : (setInsert s x).Nodup := by
  simp only [setInsert]
  split
  · exact h
  · rename_i hx
    rw [List.nodup_append]
    refine ⟨h, by simp, ?_⟩
    intro a ha b hb
    simp only [List.mem_singleton] at hb
    subst hb
    intro e
    subst e
    exact hx ha

theorem mem_setRemove {s : List Nat} {x y : Nat} : y ∈ setRemove s x ↔ y ∈ s ∧ y ≠ x := by
  simp [setRemove]

theorem nodup_setRemove {s : List Nat} {x : Nat} (h : s.Nodup) : (setRemove s x).Nodup :=
  h.filter _

theorem mem_setExtend {y : Nat} : ∀ {xs s : List Nat}, y ∈ setExtend s xs ↔ y ∈ s ∨ y ∈ xs
  | [], s => by simp [setExtend]
  | x :: xs, s => by
    have := mem_setExtend (y := y) (xs := xs) (s := setInsert s x)
    simp only [setExtend, List.foldl_cons] at this ⊢
    rw [this, mem_setInsert, List.mem_cons]
    constructor
    · rintro ((h | h) | h)
      · exact .inl h
      · exact .inr (.inl h)
      · exact .inr (.inr h)
    · rintro (h | h | h)
      · exact .inl (.inl h)
      · exact .inl (.inr h)
      · exact .inr h

theorem nodup_setExtend : ∀ {xs s : List Nat}, s.Nodup → (setExtend s xs).Nodup
  | [], s, h => by simpa [setExtend]
  | x :: xs, s, h => by
    have := nodup_setExtend (xs := xs) (nodup_setInsert (x := x) h)
    simpa only [setExtend, List.foldl_cons] using this

/-! ## The node map -/

theorem lookup_map {f : Node → Node} {k j : Nat} : ∀ {l : List (Nat × Node)},
    (l.map (fun e => if e.1 == k then (e.1, f e.2) else e)).lookup j =
      if j = k then (l.lookup j).map f else l.lookup j
  | [] => by simp
  | (a, n) :: l => by
    have ih := lookup_map (f := f) (k := k) (j := j) (l := l)
    by_cases hak : a = k
    · subst hak
      by_cases hja : j = a
      · subst hja
        simp [List.lookup_cons]
      · have hb : (j == a) = false := by simpa using hja
        simp only [List.map_cons, beq_self_eq_true, if_true, List.lookup_cons, hb] 
        rw [ih]
    · have hb : (a == k) = false := by simpa using hak
      by_cases hja : j = a
      · subst hja
        simp [List.lookup_cons, hak]
      · have hb' : (j == a) = false := by simpa using hja
        simp only [List.map_cons, hb, List.lookup_cons, hb', Bool.false_eq_true, if_false]
        exact ih

theorem lookup_isSome {k : Nat} : ∀ {l : List (Nat × Node)},
    (l.lookup k).isSome ↔ k ∈ l.map (·.1)
  | [] => by simp
  | (a, n) :: l => by
    by_cases h : k = a
    · subst h; simp [List.lookup_cons]
    · have hb : (k == a) = false := by simpa using h
      simp only [List.lookup_cons, hb, List.map_cons, List.mem_cons, h, false_or]
      exact lookup_isSome

theorem contains_iff {g : Graph} {k : Nat} : g.contains k = true ↔ k ∈ g.labels := by
  simp only [Graph.contains, Graph.get, Graph.labels]
  exact lookup_isSome

theorem get_mapAt {g : Graph} {k j : Nat} {f : Node → Node} :
    (g.mapAt k f).get j = if j = k then (g.get j).map f else g.get j := lookup_map

theorem labels_mapAt {g : Graph} {k : Nat} {f : Node → Node} :
    (g.mapAt k f).labels = g.labels := by
  simp only [Graph.mapAt, Graph.labels, List.map_map]
  apply List.map_congr_left
  intro e _
  simp only [Function.comp]
  split <;> rfl

theorem lookup_append_single {k j : Nat} {n : Node} : ∀ {l : List (Nat × Node)},
    (l ++ [(k, n)]).lookup j = (l.lookup j).or (if j = k then some n else none)
  | [] => by
    by_cases h : j = k
    · subst h; simp [List.lookup_cons]
    · have hb : (j == k) = false := by simpa using h
      simp [List.lookup_cons, hb, h]
  | (a, m) :: l => by
    by_cases h : j = a
    · subst h; simp [List.lookup_cons]
    · have hb : (j == a) = false := by simpa using h
      simp only [List.cons_append, List.lookup_cons, hb]
      exact lookup_append_single

theorem get_entry {g : Graph} {k j : Nat} {f : Node → Node} :
    (g.entry k f).get j = if j = k then some (f ((g.get k).getD Node.default)) else g.get j := by
  simp only [Graph.entry]
  split
  · rename_i h
    rw [get_mapAt]
    by_cases hj : j = k
    · subst hj
      simp only [if_true]
      simp only [Graph.contains] at h
      cases hg : g.get j with
      | none => rw [hg] at h; simp at h
      | some n => simp
    · simp [hj]
  · rename_i h
    simp only [Graph.contains, Bool.not_eq_true, Option.isSome_eq_false_iff,
      Option.isNone_iff_eq_none] at h
    simp only [Graph.get] at h ⊢
    rw [lookup_append_single]
    by_cases hj : j = k
    · subst hj; simp [h]
    · simp [hj]

theorem labels_entry {g : Graph} {k : Nat} {f : Node → Node} :
    (g.entry k f).labels = if k ∈ g.labels then g.labels else g.labels ++ [k] := by
  by_cases h : k ∈ g.labels
  · have h' := contains_iff.2 h
    simp only [Graph.entry, h', if_true, h, labels_mapAt]
  · have h' : ¬ g.contains k = true := fun e => h (contains_iff.1 e)
    simp only [Graph.entry, h', h, if_false]
    simp [Graph.labels]

theorem lookup_filter {k j : Nat} : ∀ {l : List (Nat × Node)},
    (l.filter (fun e => e.1 != k)).lookup j = if j = k then none else l.lookup j
  | [] => by simp
  | (a, m) :: l => by
    have ih := lookup_filter (k := k) (j := j) (l := l)
    by_cases ha : a = k
    · subst ha
      simp only [List.filter_cons, bne_self_eq_false, Bool.false_eq_true, if_false, ih]
      by_cases hj : j = a
      · simp [hj]
      · have hb : (j == a) = false := by simpa using hj
        simp [hj, List.lookup_cons, hb]
    · have hb : (a != k) = true := by simpa using ha
      simp only [List.filter_cons, hb, if_true]
      by_cases hj : j = a
      · subst hj; simp [List.lookup_cons, ha]
      · have hb : (j == a) = false := by simpa using hj
        simp only [List.lookup_cons, hb]
        exact ih

theorem get_erase {g : Graph} {k j : Nat} :
    (g.erase k).get j = if j = k then none else g.get j := lookup_filter

theorem labels_erase {g : Graph} {k : Nat} :
    (g.erase k).labels = g.labels.filter (fun x => x != k) := by
  simp only [Graph.erase, Graph.labels, List.filter_map]
  rfl

theorem mem_lookup {β : Type} {k : Nat} {n : β} : ∀ {l : List (Nat × β)}, (l.map (·.1)).Nodup →
    ((k, n) ∈ l ↔ l.lookup k = some n)
  | [], _ => by simp
  | (a, m) :: l, h => by
    simp only [List.map_cons, List.nodup_cons] at h
    have ih := mem_lookup (k := k) (n := n) h.2
    by_cases hk : k = a
    · subst hk
      have : (k, n) ∉ l := fun hm => h.1 (List.mem_map.2 ⟨_, hm, rfl⟩)
      simp [List.lookup_cons, this, eq_comm]
    · have hb : (k == a) = false := by simpa using hk
      simp [List.lookup_cons, hb, hk, ih]

/-! ## Children, parents and labels after an update -/

/-- The invariant of every graph built with the API. -/
structure WF (g : Graph) : Prop where
  keys : g.labels.Nodup
  sym : ∀ a b : Nat, b ∈ g.children a ↔ a ∈ g.parents b
  ncs : ∀ a : Nat, (g.children a).Nodup
  nps : ∀ a : Nat, (g.parents a).Nodup

theorem mem_labels_of_child {g : Graph} {a b : Nat} (h : b ∈ g.children a) : a ∈ g.labels := by
  apply contains_iff.1
  simp only [Graph.children] at h
  simp only [Graph.contains]
  cases hg : g.get a with
  | none => rw [hg] at h; simp at h
  | some n => rfl

theorem mem_labels_of_parent {g : Graph} {a b : Nat} (h : a ∈ g.parents b) : b ∈ g.labels := by
  apply contains_iff.1
  simp only [Graph.parents] at h
  simp only [Graph.contains]
  cases hg : g.get b with
  | none => rw [hg] at h; simp at h
  | some n => rfl

theorem WF.child_label {g : Graph} (w : WF g) {a b : Nat} (h : b ∈ g.children a) : b ∈ g.labels :=
  mem_labels_of_parent ((w.sym a b).1 h)

theorem wf_new : WF Graph.new :=
  ⟨by simp [Graph.new, Graph.labels], by simp [Graph.new, Graph.children, Graph.parents, Graph.get],
   by simp [Graph.new, Graph.children, Graph.get], by simp [Graph.new, Graph.parents, Graph.get]⟩

theorem children_connect {g : Graph} {p c a : Nat} :
    (g.connect p c).children a = if a = p then setInsert (g.children p) c else g.children a := by
  simp only [Graph.connect, Graph.children, get_entry]
  by_cases hc : a = c
  · subst hc
    by_cases hp : a = p
    · subst hp
      simp only [if_true, Option.getD_some]
      cases g.get a <;> rfl
    · simp only [if_true, hp, if_false]
      cases g.get a <;> rfl
  · simp only [hc, if_false]
    by_cases hp : a = p
    · subst hp
      simp only [if_true]
      cases g.get a <;> rfl
    · simp [hp]

theorem parents_connect {g : Graph} {p c a : Nat} :
    (g.connect p c).parents a = if a = c then setInsert (g.parents c) p else g.parents a := by
  simp only [Graph.connect, Graph.parents, get_entry]
  by_cases hc : a = c
  · subst hc
    by_cases hp : a = p
    · subst hp
      simp only [if_true, Option.getD_some]
      cases g.get a <;> rfl
    · simp only [if_true, hp, if_false]
      cases g.get a <;> rfl
  · simp only [hc, if_false]
    by_cases hp : a = p
    · subst hp
      simp only [if_true]
      cases g.get a <;> rfl
    · simp [hp]

theorem mem_labels_connect {g : Graph} {p c k : Nat} :
    k ∈ (g.connect p c).labels ↔ k ∈ g.labels ∨ k = p ∨ k = c := by
  have key : ∀ (g : Graph) (j : Nat) (f : Node → Node),
      k ∈ (g.entry j f).labels ↔ k ∈ g.labels ∨ k = j := by
    intro g j f
    rw [labels_entry]
    split
    · rename_i h
      constructor
      · exact .inl
      · rintro (h' | rfl)
        · exact h'
        · exact h
    · simp
  simp only [Graph.connect, key, or_assoc]

theorem nodup_labels_entry {g : Graph} {k : Nat} {f : Node → Node} (h : g.labels.Nodup) :
    (g.entry k f).labels.Nodup := by
  rw [labels_entry]
  split
  · exact h
  · rename_i hk
    rw [List.nodup_append]
    refine ⟨h, by simp, ?_⟩
    intro a ha b hb e
    simp only [List.mem_singleton] at hb
    subst hb
    subst e
    exact hk ha

theorem wf_connect {g : Graph} (w : WF g) (p c : Nat) : WF (g.connect p c) := by
  refine ⟨nodup_labels_entry (nodup_labels_entry w.keys), ?_, ?_, ?_⟩
  · intro a b
    rw [children_connect, parents_connect]
    by_cases ha : a = p
    · subst ha
      by_cases hb : b = c
      · subst hb
        simp [mem_setInsert]
      · simp [hb, mem_setInsert, w.sym]
    · by_cases hb : b = c
      · subst hb
        simp [ha, mem_setInsert, w.sym]
      · simp [ha, hb, w.sym]
  · intro a
    rw [children_connect]
    split
    · exact nodup_setInsert (w.ncs _)
    · exact w.ncs _
  · intro a
    rw [parents_connect]
    split
    · exact nodup_setInsert (w.nps _)
    · exact w.nps _

theorem getMut_eq {g g' : Graph} {k : Nat} {f : Node → Node} :
    g.getMut k f = some g' ↔ k ∈ g.labels ∧ g' = g.mapAt k f := by
  simp only [Graph.getMut]
  split
  · rename_i h
    simp [contains_iff.1 h, eq_comm]
  · rename_i h
    have : k ∉ g.labels := fun e => h (contains_iff.2 e)
    simp [this]

theorem children_mapAt {g : Graph} {k a : Nat} {f : Node → Node} {F : List Nat → List Nat}
    (hf : ∀ n : Node, (f n).children = F n.children) (h : k ∈ g.labels ∨ F [] = []) :
    (g.mapAt k f).children a = if a = k then F (g.children k) else g.children a := by
  simp only [Graph.children, get_mapAt]
  by_cases ha : a = k
  · subst ha
    simp only [if_true]
    cases hg : g.get a with
    | none =>
      rcases h with h | h
      · have := contains_iff.2 h
        simp [Graph.contains, hg] at this
      · simp [h]
    | some n => simp [hf]
  · simp [ha]

theorem parents_mapAt {g : Graph} {k a : Nat} {f : Node → Node} {F : List Nat → List Nat}
    (hf : ∀ n : Node, (f n).parents = F n.parents) (h : k ∈ g.labels ∨ F [] = []) :
    (g.mapAt k f).parents a = if a = k then F (g.parents k) else g.parents a := by
  simp only [Graph.parents, get_mapAt]
  by_cases ha : a = k
  · subst ha
    simp only [if_true]
    cases hg : g.get a with
    | none =>
      rcases h with h | h
      · have := contains_iff.2 h
        simp [Graph.contains, hg] at this
      · simp [h]
    | some n => simp [hf]
  · simp [ha]

theorem children_mapAt_same {g : Graph} {k a : Nat} {f : Node → Node}
    (hf : ∀ n : Node, (f n).children = n.children) : (g.mapAt k f).children a = g.children a := by
  rw [children_mapAt (F := fun l => l) hf (.inr rfl)]
  split
  · rename_i e; rw [e]
  · rfl

theorem parents_mapAt_same {g : Graph} {k a : Nat} {f : Node → Node}
    (hf : ∀ n : Node, (f n).parents = n.parents) : (g.mapAt k f).parents a = g.parents a := by
  rw [parents_mapAt (F := fun l => l) hf (.inr rfl)]
  split
  · rename_i e; rw [e]
  · rfl

theorem disconnect_eq {g : Graph} {p c : Nat} (hp : p ∈ g.labels) (hc : c ∈ g.labels) :
    ∃ g', g.disconnect p c = some g' ∧ g'.labels = g.labels ∧
      (∀ a, g'.children a = if a = p then setRemove (g.children p) c else g.children a) ∧
      (∀ a, g'.parents a = if a = c then setRemove (g.parents c) p else g.parents a) := by
  have h1 := (getMut_eq (g := g) (k := p)
    (f := fun n => { n with children := setRemove n.children c })).2 ⟨hp, rfl⟩
  simp only [Graph.disconnect, h1, Option.bind_eq_bind, Option.bind_some]
  have hc' : c ∈ (g.mapAt p (fun n => { n with children := setRemove n.children c })).labels := by
    rw [labels_mapAt]; exact hc
  rw [(getMut_eq (k := c) (f := fun n => { n with parents := setRemove n.parents p })).2
    ⟨hc', rfl⟩]
  refine ⟨_, rfl, by rw [labels_mapAt, labels_mapAt], ?_, ?_⟩
  · intro a
    rw [children_mapAt_same (by intro n; rfl)]
    exact children_mapAt (F := fun l => setRemove l c) (fun n => rfl) (.inl hp)
  · intro a
    rw [parents_mapAt (F := fun l => setRemove l p) (fun n => rfl) (.inl hc')]
    rw [parents_mapAt_same (by intro n; rfl), parents_mapAt_same (by intro n; rfl)]

theorem disconnect_none {g : Graph} {p c : Nat} (h : ¬ (p ∈ g.labels ∧ c ∈ g.labels)) :
    g.disconnect p c = none := by
  cases hd : g.disconnect p c with
  | none => rfl
  | some g' =>
    exfalso
    simp only [Graph.disconnect, Option.bind_eq_bind, Option.bind_eq_some_iff] at hd
    obtain ⟨g1, h1, h2⟩ := hd
    obtain ⟨hp, rfl⟩ := getMut_eq.1 h1
    obtain ⟨hc, -⟩ := getMut_eq.1 h2
    rw [labels_mapAt] at hc
    exact h ⟨hp, hc⟩

theorem children_erase {g : Graph} {k a : Nat} :
    (g.erase k).children a = if a = k then [] else g.children a := by
  simp only [Graph.children, get_erase]
  by_cases ha : a = k
  · simp [ha]
  · simp [ha]

theorem parents_erase {g : Graph} {k a : Nat} :
    (g.erase k).parents a = if a = k then [] else g.parents a := by
  simp only [Graph.parents, get_erase]
  by_cases ha : a = k
  · simp [ha]
  · simp [ha]

theorem mem_labels_erase {g : Graph} {k a : Nat} :
    a ∈ (g.erase k).labels ↔ a ∈ g.labels ∧ a ≠ k := by
  rw [labels_erase]; simp

/-- A loop of `get_mut(..).unwrap()` changing the children of the listed nodes. -/
theorem fold_children {F : List Nat → List Nat} : ∀ {ks : List Nat} {g : Graph}, ks.Nodup →
    (∀ k ∈ ks, k ∈ g.labels) →
    ∃ g', ks.foldlM (fun g k => g.getMut k (fun n => { n with children := F n.children })) g
        = some g' ∧ g'.labels = g.labels ∧
      (∀ a, g'.children a = if a ∈ ks then F (g.children a) else g.children a) ∧
      (∀ a, g'.parents a = g.parents a)
  | [], g, _, _ => ⟨g, rfl, rfl, by simp, by simp⟩
  | k :: ks, g, hn, hk => by
    rw [List.nodup_cons] at hn
    have hkl := hk k (by simp)
    obtain ⟨g', e, hl, hc, hp⟩ := fold_children (F := F) (ks := ks)
      (g := g.mapAt k (fun n => { n with children := F n.children })) hn.2
      (fun j hj => by rw [labels_mapAt]; exact hk j (List.mem_cons_of_mem _ hj))
    refine ⟨g', ?_, by rw [hl, labels_mapAt], ?_, ?_⟩
    · simp only [List.foldlM_cons, (getMut_eq (k := k)
        (f := fun n => { n with children := F n.children })).2 ⟨hkl, rfl⟩,
        Option.bind_eq_bind, Option.bind_some]
      exact e
    · intro a
      rw [hc a, children_mapAt (F := F) (fun n => rfl) (.inl hkl)]
      by_cases ha : a = k
      · subst ha
        simp [hn.1]
      · simp [ha]
    · intro a
      rw [hp a, parents_mapAt_same (by intro n; rfl)]

/-- A loop of `get_mut(..).unwrap()` changing the parents of the listed nodes. -/
theorem fold_parents {F : List Nat → List Nat} : ∀ {ks : List Nat} {g : Graph}, ks.Nodup →
    (∀ k ∈ ks, k ∈ g.labels) →
    ∃ g', ks.foldlM (fun g k => g.getMut k (fun n => { n with parents := F n.parents })) g
        = some g' ∧ g'.labels = g.labels ∧
      (∀ a, g'.parents a = if a ∈ ks then F (g.parents a) else g.parents a) ∧
      (∀ a, g'.children a = g.children a)
  | [], g, _, _ => ⟨g, rfl, rfl, by simp, by simp⟩
  | k :: ks, g, hn, hk => by
    rw [List.nodup_cons] at hn
    have hkl := hk k (by simp)
    obtain ⟨g', e, hl, hc, hp⟩ := fold_parents (F := F) (ks := ks)
      (g := g.mapAt k (fun n => { n with parents := F n.parents })) hn.2
      (fun j hj => by rw [labels_mapAt]; exact hk j (List.mem_cons_of_mem _ hj))
    refine ⟨g', ?_, by rw [hl, labels_mapAt], ?_, ?_⟩
    · simp only [List.foldlM_cons, (getMut_eq (k := k)
        (f := fun n => { n with parents := F n.parents })).2 ⟨hkl, rfl⟩,
        Option.bind_eq_bind, Option.bind_some]
      exact e
    · intro a
      rw [hc a, parents_mapAt (F := F) (fun n => rfl) (.inl hkl)]
      by_cases ha : a = k
      · subst ha
        simp [hn.1]
      · simp [ha]
    · intro a
      rw [hp a, children_mapAt_same (by intro n; rfl)]

theorem contract_eq {g : Graph} (w : WF g) {n : Nat} (hn : n ∈ g.labels) :
    ∃ g', g.contract n = some g' ∧ g'.labels = g.labels.filter (fun x => x != n) ∧
      (∀ a, (g'.children a).Nodup) ∧ (∀ a, (g'.parents a).Nodup) ∧
      (∀ a b, b ∈ g'.children a ↔
        a ≠ n ∧ b ≠ n ∧ (b ∈ g.children a ∨ (n ∈ g.children a ∧ b ∈ g.children n))) ∧
      (∀ a b, a ∈ g'.parents b ↔
        a ≠ n ∧ b ≠ n ∧ (a ∈ g.parents b ∨ (n ∈ g.parents b ∧ a ∈ g.parents n))) := by
  have hc := contains_iff.2 hn
  simp only [Graph.contains] at hc
  obtain ⟨r, hr⟩ := Option.isSome_iff_exists.1 hc
  have hrc : g.children n = r.children := by simp [Graph.children, hr]
  have hrp : g.parents n = r.parents := by simp [Graph.parents, hr]
  have ncs : (setRemove r.children n).Nodup := nodup_setRemove (hrc ▸ w.ncs n)
  have nps : (setRemove r.parents n).Nodup := nodup_setRemove (hrp ▸ w.nps n)
  have lps : ∀ k ∈ setRemove r.parents n, k ∈ (g.erase n).labels := by
    intro k hk
    rw [mem_setRemove, ← hrp] at hk
    exact mem_labels_erase.2 ⟨mem_labels_of_child ((w.sym k n).2 hk.1), hk.2⟩
  have lcs : ∀ k ∈ setRemove r.children n, k ∈ (g.erase n).labels := by
    intro k hk
    rw [mem_setRemove, ← hrc] at hk
    exact mem_labels_erase.2 ⟨w.child_label hk.1, hk.2⟩
  obtain ⟨g1, e1, l1, c1, p1⟩ := fold_children
    (F := fun l => setExtend l (setRemove r.children n)) nps lps
  obtain ⟨g2, e2, l2, p2, c2⟩ := fold_parents
    (F := fun l => setExtend l (setRemove r.parents n)) (g := g1) ncs
    (fun k hk => by rw [l1]; exact lcs k hk)
  obtain ⟨g3, e3, l3, c3, p3⟩ := fold_children
    (F := fun l => setRemove l n) (g := g2) nps
    (fun k hk => by rw [l2, l1]; exact lps k hk)
  obtain ⟨g4, e4, l4, p4, c4⟩ := fold_parents
    (F := fun l => setRemove l n) (g := g3) ncs
    (fun k hk => by rw [l3, l2, l1]; exact lcs k hk)
  refine ⟨g4, ?_, ?_, ?_, ?_, ?_, ?_⟩
  · simp only [Graph.contract, hr, Option.bind_eq_bind, e1, Option.bind_some, e2, e3]
    exact e4
  · rw [l4, l3, l2, l1, labels_erase]
  · intro a
    rw [c4, c3, c2, c1, children_erase]
    by_cases ha : a = n
    · simp only [ha, if_true]
      split
      · exact nodup_setRemove (nodup_setExtend (by simp))
      · simp
    · simp only [ha, if_false]
      split
      · exact nodup_setRemove (nodup_setExtend (w.ncs a))
      · exact w.ncs a
  · intro a
    rw [p4, p3, p2, p1, parents_erase]
    by_cases ha : a = n
    · simp only [ha, if_true]
      split
      · exact nodup_setRemove (nodup_setExtend (by simp))
      · simp
    · simp only [ha, if_false]
      split
      · exact nodup_setRemove (nodup_setExtend (w.nps a))
      · exact w.nps a
  · intro a b
    rw [c4, c3, c2, c1, children_erase]
    simp only [mem_setRemove, ← hrp, ← w.sym]
    by_cases ha : a = n
    · subst ha; simp
    · simp only [ha, if_false, ne_eq, not_false_eq_true, and_true, true_and]
      by_cases hp : n ∈ g.children a
      · simp only [hp, if_true, mem_setRemove, mem_setExtend, true_and, ← hrc]
        constructor
        · rintro ⟨h | ⟨h, -⟩, hb⟩
          · exact ⟨hb, .inl h⟩
          · exact ⟨hb, .inr h⟩
        · rintro ⟨hb, h | h⟩
          · exact ⟨.inl h, hb⟩
          · exact ⟨.inr ⟨h, hb⟩, hb⟩
      · simp only [hp, if_false, false_and, or_false]
        constructor
        · intro h
          exact ⟨fun e => hp (e ▸ h), h⟩
        · exact fun h => h.2
  · intro a b
    rw [p4, p3, p2, p1, parents_erase]
    simp only [mem_setRemove, ← hrc, w.sym n b]
    by_cases hb : b = n
    · subst hb; simp
    · simp only [hb, if_false, ne_eq, not_false_eq_true, and_true, true_and]
      by_cases hp : n ∈ g.parents b
      · simp only [hp, if_true, mem_setRemove, mem_setExtend, true_and, ← hrp]
        constructor
        · rintro ⟨h | ⟨h, -⟩, hb⟩
          · exact ⟨hb, .inl h⟩
          · exact ⟨hb, .inr h⟩
        · rintro ⟨hb, h | h⟩
          · exact ⟨.inl h, hb⟩
          · exact ⟨.inr ⟨h, hb⟩, hb⟩
      · simp only [hp, if_false, false_and, or_false]
        constructor
        · intro h
          exact ⟨fun e => hp (e ▸ h), h⟩
        · exact fun h => h.2

theorem contract_wf {g g' : Graph} (w : WF g) {n : Nat} (h : g.contract n = some g') :
    WF g' ∧ n ∈ g.labels ∧ g'.labels = g.labels.filter (fun x => x != n) ∧
    (∀ a b, b ∈ g'.children a ↔
      a ≠ n ∧ b ≠ n ∧ (b ∈ g.children a ∨ (n ∈ g.children a ∧ b ∈ g.children n))) := by
  have hn : n ∈ g.labels := by
    apply contains_iff.1
    simp only [Graph.contract] at h
    simp only [Graph.contains]
    cases hg : g.get n with
    | none => rw [hg] at h; simp at h
    | some r => rfl
  obtain ⟨g2, e, hl, nc, np, hc, hp⟩ := contract_eq w hn
  rw [h] at e
  obtain rfl := Option.some.inj e
  refine ⟨⟨?_, ?_, nc, np⟩, hn, hl, hc⟩
  · rw [hl]; exact w.keys.filter _
  · intro a b
    rw [hc, hp, w.sym a b, w.sym n b, w.sym a n]
    constructor
    · rintro ⟨h1, h2, h | ⟨h, h'⟩⟩
      · exact ⟨h1, h2, .inl h⟩
      · exact ⟨h1, h2, .inr ⟨h', h⟩⟩
    · rintro ⟨h1, h2, h | ⟨h, h'⟩⟩
      · exact ⟨h1, h2, .inl h⟩
      · exact ⟨h1, h2, .inr ⟨h', h⟩⟩

theorem pop_eq {g : Graph} {n : Nat} (hn : n ∈ g.labels) (hc : g.children n = [])
    (hp : g.parents n = []) : g.pop n = some (g.erase n) := by
  have h := contains_iff.2 hn
  simp only [Graph.contains] at h
  obtain ⟨r, hr⟩ := Option.isSome_iff_exists.1 h
  have hrc : r.children = [] := by simpa [Graph.children, hr] using hc
  have hrp : r.parents = [] := by simpa [Graph.parents, hr] using hp
  simp [Graph.pop, hr, hrc, hrp]

theorem pop_some {g g' : Graph} {n : Nat} (h : g.pop n = some g') :
    n ∈ g.labels ∧ g.children n = [] ∧ g.parents n = [] ∧ g' = g.erase n := by
  simp only [Graph.pop] at h
  cases hr : g.get n with
  | none => rw [hr] at h; simp at h
  | some r =>
    rw [hr] at h
    dsimp only at h
    split at h
    · rename_i he
      simp only [Bool.and_eq_true, List.isEmpty_iff] at he
      refine ⟨contains_iff.1 (by simp [Graph.contains, hr]), ?_, ?_, (Option.some.inj h).symm⟩
      · simp [Graph.children, hr, he.2]
      · simp [Graph.parents, hr, he.1]
    · simp at h

theorem pop_wf {g g' : Graph} (w : WF g) {n : Nat} (h : g.pop n = some g') : WF g' := by
  obtain ⟨hn, hc, hp, rfl⟩ := pop_some h
  refine ⟨?_, ?_, ?_, ?_⟩
  · rw [labels_erase]; exact w.keys.filter _
  · intro a b
    rw [children_erase, parents_erase]
    by_cases ha : a = n
    · subst ha
      by_cases hb : b = a
      · subst hb; simp
      · simp only [if_true, hb, if_false, List.not_mem_nil, false_iff]
        intro h'
        have := (w.sym a b).2 h'
        rw [hc] at this
        simp at this
    · by_cases hb : b = n
      · subst hb
        simp only [ha, if_false, if_true, List.not_mem_nil, iff_false]
        intro h'
        have := (w.sym a b).1 h'
        rw [hp] at this
        simp at this
      · simp [ha, hb, w.sym]
  · intro a
    rw [children_erase]
    split
    · simp
    · exact w.ncs a
  · intro a
    rw [parents_erase]
    split
    · simp
    · exact w.nps a

theorem disconnect_wf {g g' : Graph} (w : WF g) {p c : Nat} (h : g.disconnect p c = some g') :
    WF g' ∧ (p ∈ g.labels ∧ c ∈ g.labels) ∧ g'.labels = g.labels ∧
    (∀ a b, b ∈ g'.children a ↔ b ∈ g.children a ∧ ¬ (a = p ∧ b = c)) := by
  by_cases hl : p ∈ g.labels ∧ c ∈ g.labels
  · obtain ⟨g2, e, hl', hc, hp⟩ := disconnect_eq hl.1 hl.2
    rw [h] at e
    obtain rfl := Option.some.inj e
    have hch : ∀ a b, b ∈ g'.children a ↔ b ∈ g.children a ∧ ¬ (a = p ∧ b = c) := by
      intro a b
      rw [hc]
      by_cases ha : a = p
      · subst ha; simp [mem_setRemove]
      · simp [ha]
    refine ⟨⟨by rw [hl']; exact w.keys, ?_, ?_, ?_⟩, hl, hl', hch⟩
    · intro a b
      rw [hch, hp]
      by_cases hb : b = c
      · subst hb
        simp [mem_setRemove, w.sym]
      · simp [hb, w.sym]
    · intro a
      rw [hc]
      split
      · exact nodup_setRemove (w.ncs _)
      · exact w.ncs _
    · intro a
      rw [hp]
      split
      · exact nodup_setRemove (w.nps _)
      · exact w.nps _
  · rw [disconnect_none hl] at h
    simp at h

end Verif.Graph
