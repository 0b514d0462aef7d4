import Verif.Flow.Engine
import Mathlib.Data.List.Nodup
/-!
# Lemmas about interference graphs and register allocation
-/

namespace Verif.Flow

open Verif.Graph Verif.Il

/-! ## Association lists -/

theorem lookup_eq_of_mem {β : Type} {k : Nat} {v : β} : ∀ {l : List (Nat × β)}, (l.map (·.1)).Nodup →
    (k, v) ∈ l → l.lookup k = some v := fun hn h => (mem_lookup hn).1 h

theorem mem_of_lookup {β : Type} {k : Nat} {v : β} : ∀ {l : List (Nat × β)}, l.lookup k = some v → (k, v) ∈ l
  | [], h => by simp at h
  | (a, w) :: l, h => by
    rw [List.lookup_cons] at h
    cases e : (k == a) with
    | true =>
      rw [e] at h
      simp only [Option.some.injEq] at h
      have : k = a := by simpa using e
      subst this; subst h
      simp
    | false =>
      rw [e] at h
      exact List.mem_cons_of_mem _ (mem_of_lookup h)

theorem lookup_none_iff {β : Type} {k : Nat} {l : List (Nat × β)} : l.lookup k = none ↔ k ∉ l.map (·.1) := by
  constructor
  · intro h hm
    obtain ⟨v, hv⟩ := lookup_some_of_mem hm
    rw [h] at hv
    cases hv
  · intro h
    cases hl : l.lookup k with
    | none => rfl
    | some v => exact absurd (List.mem_map.2 ⟨_, mem_of_lookup hl, rfl⟩) h

theorem isNode_iff {g : IntGraph} {a : Nat} : IsNode g a ↔ a ∈ g.map (·.1) := by
  constructor
  · rintro ⟨ns, h⟩
    exact List.mem_map.2 ⟨_, mem_of_lookup h, rfl⟩
  · exact lookup_some_of_mem

theorem lookup_mapVal {F : Nat → List Nat → List Nat} {k : Nat} : ∀ {g : IntGraph},
    (g.map (fun e => (e.1, F e.1 e.2))).lookup k = (g.lookup k).map (F k)
  | [] => by simp
  | (a, ns) :: g => by
    simp only [List.map_cons, List.lookup_cons]
    cases e : (k == a) with
    | true =>
      have : k = a := by simpa using e
      subst this
      simp
    | false => simpa [e] using lookup_mapVal (F := F) (k := k) (g := g)

theorem lookup_filter_ne {β : Type} {t k : Nat} : ∀ {g : List (Nat × β)},
    (g.filter (fun x => x.1 != t)).lookup k = if k = t then none else g.lookup k
  | [] => by simp
  | (a, ns) :: g => by
    have ih := lookup_filter_ne (t := t) (k := k) (g := g)
    by_cases e : a = t
    · subst e
      rw [List.filter_cons_of_neg (by simp), ih, List.lookup_cons]
      by_cases hk : k = a
      · simp [hk]
      · have hk' : (k == a) = false := by simp [hk]
        simp [hk, hk']
    · rw [List.filter_cons_of_pos (by simp [e]), List.lookup_cons, List.lookup_cons, ih]
      by_cases hk : k = a
      · subst hk; simp [e]
      · have hk' : (k == a) = false := by simp [hk]
        simp [hk']

/-! ## The graph built from live sets -/

theorem lookup_ensureNode {g : IntGraph} {a k : Nat} :
    (ensureNode g a).lookup k = if k = a then some ((g.lookup a).getD []) else g.lookup k := by
  unfold ensureNode
  cases h : g.lookup a with
  | some ns =>
    simp only [Option.isSome_some, ↓reduceIte, Option.getD_some]
    split
    · rename_i e; rw [e, h]
    · rfl
  | none =>
    simp only [Option.isSome_none, Bool.false_eq_true, ↓reduceIte, Option.getD_none]
    have : ∀ (l : IntGraph), l.lookup a = none →
        (l ++ [(a, [])]).lookup k = if k = a then some [] else l.lookup k := by
      intro l
      induction l with
      | nil =>
        intro _
        simp only [List.nil_append, List.lookup_cons, List.lookup_nil]
        by_cases hk : k = a
        · simp [hk]
        · have hk' : (k == a) = false := by simp [hk]
          simp [hk, hk']
      | cons e l ih =>
        obtain ⟨b, ns⟩ := e
        intro hl
        rw [List.lookup_cons] at hl
        cases hab : (a == b) with
        | true => simp [hab] at hl
        | false =>
          rw [hab] at hl
          simp only [List.cons_append, List.lookup_cons]
          cases hkb : (k == b) with
          | true =>
            have : k = b := by simpa using hkb
            subst this
            have : k ≠ a := by rintro rfl; simp at hab
            simp [this]
          | false => exact ih hl
    exact this g h

theorem lookup_addEdge {g : IntGraph} {a b k : Nat} :
    (addEdge g a b).lookup k =
      if k = a then some (setInsert ((g.lookup a).getD []) b) else g.lookup k := by
  unfold addEdge
  have : ((ensureNode g a).map (fun e => if e.1 == a then (e.1, setInsert e.2 b) else e)) =
      (ensureNode g a).map (fun e => (e.1, (fun k ns => if k == a then setInsert ns b else ns) e.1 e.2)) := by
    apply List.map_congr_left
    intro e _
    by_cases h : e.1 == a <;> simp [h]
  rw [this, lookup_mapVal (F := fun k ns => if k == a then setInsert ns b else ns), lookup_ensureNode]
  by_cases hk : k = a
  · simp [hk]
  · simp [hk]

theorem keys_ensureNode {g : IntGraph} {a : Nat} (h : (g.map (·.1)).Nodup) :
    ((ensureNode g a).map (·.1)).Nodup := by
  unfold ensureNode
  cases hl : g.lookup a with
  | some ns => simpa using h
  | none =>
    have := lookup_none_iff.1 hl
    simp only [Option.isSome_none, Bool.false_eq_true, ↓reduceIte, List.map_append, List.map_cons,
      List.map_nil]
    rw [List.nodup_append]
    refine ⟨h, by simp, ?_⟩
    intro x hx y hy e
    simp only [List.mem_singleton] at hy
    subst hy; subst e
    exact this hx

theorem keys_addEdge {g : IntGraph} {a b : Nat} (h : (g.map (·.1)).Nodup) :
    ((addEdge g a b).map (·.1)).Nodup := by
  unfold addEdge
  rw [List.map_map]
  have : (ensureNode g a).map ((fun x => x.1) ∘ fun e => if e.1 == a then (e.1, setInsert e.2 b) else e) =
      (ensureNode g a).map (·.1) := by
    apply List.map_congr_left
    intro e _
    simp only [Function.comp]
    split <;> rfl
  rw [this]
  exact keys_ensureNode h

/-- Keys and neighbour lists are sets. -/
structure Sets (g : IntGraph) : Prop where
  keys : (g.map (·.1)).Nodup
  sets : ∀ (a : Nat) (ns : List Nat), g.lookup a = some ns → ns.Nodup

theorem Sets.ensure {g : IntGraph} (s : Sets g) (a : Nat) : Sets (ensureNode g a) := by
  refine ⟨keys_ensureNode s.keys, ?_⟩
  intro k ns h
  rw [lookup_ensureNode] at h
  split at h
  · obtain rfl := Option.some.inj h
    cases hl : g.lookup a with
    | none => simp
    | some ms => simpa using s.sets a ms hl
  · exact s.sets k ns h

theorem Sets.add {g : IntGraph} (s : Sets g) (a b : Nat) : Sets (addEdge g a b) := by
  refine ⟨keys_addEdge s.keys, ?_⟩
  intro k ns h
  rw [lookup_addEdge] at h
  split at h
  · obtain rfl := Option.some.inj h
    apply nodup_setInsert
    cases hl : g.lookup a with
    | none => simp
    | some ms => simpa using s.sets a ms hl
  · exact s.sets k ns h

theorem interferes_ensure {g : IntGraph} {a x y : Nat} :
    Interferes (ensureNode g a) x y ↔ Interferes g x y := by
  unfold Interferes
  rw [lookup_ensureNode]
  by_cases h : x = a
  · subst h
    cases hl : g.lookup x with
    | none => simp
    | some ns => simp
  · simp [h]

theorem isNode_ensure {g : IntGraph} {a x : Nat} : IsNode (ensureNode g a) x ↔ IsNode g x ∨ x = a := by
  unfold IsNode
  rw [lookup_ensureNode]
  by_cases h : x = a
  · simp [h]
  · simp [h]

theorem interferes_add {g : IntGraph} {a b x y : Nat} :
    Interferes (addEdge g a b) x y ↔ Interferes g x y ∨ (x = a ∧ y = b) := by
  unfold Interferes
  rw [lookup_addEdge]
  by_cases h : x = a
  · subst h
    cases hl : g.lookup x with
    | none => simp [mem_setInsert]
    | some ns => simp [mem_setInsert]
  · simp [h]

theorem isNode_add {g : IntGraph} {a b x : Nat} : IsNode (addEdge g a b) x ↔ IsNode g x ∨ x = a := by
  unfold IsNode
  rw [lookup_addEdge]
  by_cases h : x = a
  · simp [h]
  · simp [h]

theorem addAll_spec {a : Nat} : ∀ (rest : List Nat) (g : IntGraph), Sets g →
    let g' := rest.foldl (fun g b => addEdge (addEdge g a b) b a) g
    Sets g' ∧
    (∀ x y, Interferes g' x y ↔ Interferes g x y ∨ (x = a ∧ y ∈ rest) ∨ (x ∈ rest ∧ y = a)) ∧
    (∀ x, IsNode g' x ↔ IsNode g x ∨ (x = a ∧ rest ≠ []) ∨ x ∈ rest)
  | [], g, s => ⟨s, by simp, by simp⟩
  | b :: rest, g, s => by
    obtain ⟨h1, h2, h3⟩ := addAll_spec (a := a) rest _ ((s.add a b).add b a)
    refine ⟨h1, ?_, ?_⟩
    · intro x y
      rw [List.foldl_cons, h2, interferes_add, interferes_add]
      simp only [List.mem_cons]
      tauto
    · intro x
      rw [List.foldl_cons, h3, isNode_add, isNode_add]
      simp only [List.mem_cons, ne_eq, reduceCtorEq, not_false_eq_true, and_true]
      tauto

theorem pairs_spec : ∀ (vs : List Nat) (g : IntGraph), Sets g → vs.Nodup →
    Sets (interferePairs vs g) ∧
    (∀ x y, Interferes (interferePairs vs g) x y ↔ Interferes g x y ∨ (x ∈ vs ∧ y ∈ vs ∧ x ≠ y)) ∧
    (∀ x, IsNode (interferePairs vs g) x ↔ IsNode g x ∨ x ∈ vs)
  | [], g, s, _ => ⟨s, by simp [interferePairs], by simp [interferePairs]⟩
  | a :: rest, g, s, hn => by
    obtain ⟨g1, g2, g3⟩ := addAll_spec (a := a) rest _ (s.ensure a)
    obtain ⟨h1, h2, h3⟩ := pairs_spec rest _ g1 hn.of_cons
    have ha : a ∉ rest := (List.nodup_cons.1 hn).1
    refine ⟨h1, ?_, ?_⟩
    · intro x y
      rw [interferePairs, h2, g2, interferes_ensure]
      simp only [List.mem_cons]
      constructor
      · rintro ((h | ⟨rfl, h⟩ | ⟨h, rfl⟩) | ⟨p, q, r⟩)
        · exact Or.inl h
        · exact Or.inr ⟨Or.inl rfl, Or.inr h, by rintro rfl; exact ha h⟩
        · exact Or.inr ⟨Or.inr h, Or.inl rfl, by rintro rfl; exact ha h⟩
        · exact Or.inr ⟨Or.inr p, Or.inr q, r⟩
      · rintro (h | ⟨rfl | p, rfl | q, r⟩)
        · exact Or.inl (Or.inl h)
        · exact absurd rfl r
        · exact Or.inl (Or.inr (Or.inl ⟨rfl, q⟩))
        · exact Or.inl (Or.inr (Or.inr ⟨p, rfl⟩))
        · exact Or.inr ⟨p, q, r⟩
    · intro x
      rw [interferePairs, h3, g3, isNode_ensure]
      simp only [List.mem_cons]
      tauto

theorem igraph_spec : ∀ (live : List (Loc × List Nat)) (g : IntGraph), Sets g → (∀ e ∈ live, e.2.Nodup) →
    let g' := live.foldl (fun g e => interferePairs e.2 g) g
    Sets g' ∧
    (∀ x y, Interferes g' x y ↔ Interferes g x y ∨ ∃ e ∈ live, x ∈ e.2 ∧ y ∈ e.2 ∧ x ≠ y) ∧
    (∀ x, IsNode g' x ↔ IsNode g x ∨ ∃ e ∈ live, x ∈ e.2)
  | [], g, s, _ => ⟨s, by simp, by simp⟩
  | e :: live, g, s, hn => by
    obtain ⟨g1, g2, g3⟩ := pairs_spec e.2 g s (hn e (by simp))
    obtain ⟨h1, h2, h3⟩ := igraph_spec live _ g1 (fun x hx => hn x (by simp [hx]))
    refine ⟨h1, ?_, ?_⟩
    · intro x y
      rw [List.foldl_cons, h2, g2]
      simp only [List.mem_cons, exists_eq_or_imp]
      tauto
    · intro x
      rw [List.foldl_cons, h3, g3]
      simp only [List.mem_cons, exists_eq_or_imp]
      tauto

theorem ensureAll_spec : ∀ (ts : List Nat) (g : IntGraph), Sets g →
    let g' := ts.foldl ensureNode g
    Sets g' ∧ (∀ x y, Interferes g' x y ↔ Interferes g x y) ∧ (∀ x, IsNode g' x ↔ IsNode g x ∨ x ∈ ts)
  | [], g, s => ⟨s, by simp, by simp⟩
  | t :: ts, g, s => by
    obtain ⟨h1, h2, h3⟩ := ensureAll_spec ts _ (s.ensure t)
    refine ⟨h1, ?_, ?_⟩
    · intro x y
      rw [List.foldl_cons, h2, interferes_ensure]
    · intro x
      rw [List.foldl_cons, h3, isNode_ensure]
      simp only [List.mem_cons]
      tauto

theorem Sets.of_ugraph {g : IntGraph} (u : UGraph g) : Sets g :=
  ⟨u.keys, fun a ns h => u.sets a ns (mem_of_lookup h)⟩

theorem UGraph.of_sets {g : IntGraph} (s : Sets g) (h1 : ∀ a b : Nat, Interferes g a b → Interferes g b a)
    (h2 : ∀ a : Nat, ¬ Interferes g a a) : UGraph g :=
  ⟨s.keys, fun a ns h => s.sets a ns (lookup_eq_of_mem s.keys h), h1, h2⟩

/-! ## Simplification -/

/-- `e` is at most `x` in the order by degree, then id. -/
def KeyLe (e x : Nat × List Nat) : Prop := e.2.length < x.2.length ∨ (e.2.length = x.2.length ∧ e.1 ≤ x.1)

theorem keyLe_refl (e : Nat × List Nat) : KeyLe e e := Or.inr ⟨rfl, Nat.le_refl _⟩

theorem keyLe_trans {a b c : Nat × List Nat} (h : KeyLe a b) (k : KeyLe b c) : KeyLe a c := by
  unfold KeyLe at *
  omega

theorem smaller_le (a b : Nat × List Nat) : KeyLe (smaller a b) a ∧ KeyLe (smaller a b) b ∧
    (smaller a b = a ∨ smaller a b = b) := by
  unfold smaller
  split
  · refine ⟨?_, keyLe_refl b, Or.inr rfl⟩
    unfold KeyLe
    omega
  · refine ⟨keyLe_refl a, ?_, Or.inl rfl⟩
    unfold KeyLe
    omega

theorem foldl_smaller : ∀ (es : IntGraph) (e : Nat × List Nat),
    (es.foldl smaller e = e ∨ es.foldl smaller e ∈ es) ∧ KeyLe (es.foldl smaller e) e ∧
    ∀ x ∈ es, KeyLe (es.foldl smaller e) x
  | [], e => ⟨Or.inl rfl, keyLe_refl e, by simp⟩
  | x :: es, e => by
    obtain ⟨h1, h2, h3⟩ := foldl_smaller es (smaller e x)
    obtain ⟨s1, s2, s3⟩ := smaller_le e x
    rw [List.foldl_cons]
    refine ⟨?_, keyLe_trans h2 s1, ?_⟩
    · obtain h1 | h1 := h1
      · obtain s3 | s3 := s3
        · exact Or.inl (h1.trans s3)
        · right
          rw [h1, s3]
          simp
      · exact Or.inr (List.mem_cons_of_mem _ h1)
    · intro y hy
      simp only [List.mem_cons] at hy
      obtain rfl | hy := hy
      · exact keyLe_trans h2 s2
      · exact h3 y hy

theorem minNode_spec {g : IntGraph} {e : Nat × List Nat} (h : minNode g = some e) :
    e ∈ g ∧ ∀ x ∈ g, KeyLe e x := by
  cases g with
  | nil => simp [minNode] at h
  | cons a es =>
    simp only [minNode, Option.some.injEq] at h
    subst h
    obtain ⟨h1, h2, h3⟩ := foldl_smaller es a
    refine ⟨?_, ?_⟩
    · obtain h1 | h1 := h1
      · rw [h1]; simp
      · exact List.mem_cons_of_mem _ h1
    · intro x hx
      simp only [List.mem_cons] at hx
      obtain rfl | hx := hx
      · exact h2
      · exact h3 x hx

theorem dropAll_spec {t : Nat} : ∀ (cs : List Nat) (g : IntGraph), (∀ c ∈ cs, c ∈ g.map (·.1)) →
    ∃ g', cs.foldlM (fun g c => dropNeighbour g c t) g = some g' ∧ g'.map (·.1) = g.map (·.1) ∧
      ∀ k, g'.lookup k = if k ∈ cs then (g.lookup k).map (fun ns => setRemove ns t) else g.lookup k
  | [], g, _ => ⟨g, rfl, rfl, by simp⟩
  | c :: cs, g, h => by
    have hc := h c (by simp)
    obtain ⟨ns, hns⟩ := lookup_some_of_mem hc
    let F : Nat → List Nat → List Nat := fun k ns => if k == c then setRemove ns t else ns
    have hg1 : g.map (fun e => if e.1 == c then (e.1, setRemove e.2 t) else e) =
        g.map (fun e => (e.1, F e.1 e.2)) := by
      apply List.map_congr_left
      intro e _
      simp only [F]
      split <;> rfl
    have hd : dropNeighbour g c t = some (g.map (fun e => (e.1, F e.1 e.2))) := by
      unfold dropNeighbour
      rw [hns, hg1]
      rfl
    have hk1 : (g.map (fun e => (e.1, F e.1 e.2))).map (·.1) = g.map (·.1) := by
      simp [List.map_map, Function.comp_def]
    obtain ⟨g', e1, e2, e3⟩ := dropAll_spec (t := t) cs _ (fun d hd => by rw [hk1]; exact h d (by simp [hd]))
    refine ⟨g', ?_, e2.trans hk1, ?_⟩
    · rw [List.foldlM_cons, hd]
      exact e1
    · intro k
      rw [e3, lookup_mapVal (F := F)]
      by_cases hkc : k = c
      · subst hkc
        have hF : F k = fun ns => setRemove ns t := by
          funext ns
          simp [F]
        rw [hF]
        by_cases hm : k ∈ cs
        · simp only [hm, List.mem_cons, true_or, ↓reduceIte, Option.map_map]
          congr 1
          funext ns
          simp [setRemove]
        · simp [hm]
      · have : F k = id := by
          funext ns
          simp only [F, beq_iff_eq, hkc, ↓reduceIte, id_eq]
        simp [this, hkc]

/-- The graph after a node has been taken out. -/
theorem remove_spec {g : IntGraph} (u : UGraph g) {t : Nat} {ns : List Nat} (h : (t, ns) ∈ g) :
    ∃ g', ns.foldlM (fun g c => dropNeighbour g c t) (g.filter (fun x => x.1 != t)) = some g' ∧
      UGraph g' ∧ g'.length < g.length ∧
      (∀ a, IsNode g' a ↔ IsNode g a ∧ a ≠ t) ∧
      (∀ a b, Interferes g' a b ↔ Interferes g a b ∧ a ≠ t ∧ b ≠ t) := by
  have hl := lookup_eq_of_mem u.keys h
  have hnt : ∀ c ∈ ns, c ≠ t := by
    rintro c hc rfl
    exact u.irrefl c ⟨ns, hl, hc⟩
  have hkeys : (g.filter (fun x => x.1 != t)).map (·.1) = (g.map (·.1)).filter (fun x => x != t) := by
    rw [List.filter_map]
    rfl
  obtain ⟨g', e1, e2, e3⟩ := dropAll_spec (t := t) ns (g.filter (fun x => x.1 != t)) (by
    intro c hc
    rw [hkeys, List.mem_filter]
    refine ⟨?_, by simpa using hnt c hc⟩
    obtain ⟨ms, hms, _⟩ := u.symm t c ⟨ns, hl, hc⟩
    exact isNode_iff.1 ⟨ms, hms⟩)
  have hlook : ∀ k, g'.lookup k =
      if k = t then none else if k ∈ ns then (g.lookup k).map (fun ns => setRemove ns t) else g.lookup k := by
    intro k
    rw [e3, lookup_filter_ne]
    by_cases hk : k = t
    · simp [hk]
    · simp [hk]
  have hnode : ∀ a, IsNode g' a ↔ IsNode g a ∧ a ≠ t := by
    intro a
    rw [isNode_iff, e2, hkeys, List.mem_filter, isNode_iff]
    simp
  have hint : ∀ a b, Interferes g' a b ↔ Interferes g a b ∧ a ≠ t ∧ b ≠ t := by
    intro a b
    unfold Interferes
    rw [hlook]
    by_cases ha : a = t
    · simp [ha]
    · by_cases hm : a ∈ ns
      · simp only [ha, hm, ↓reduceIte, Option.map_eq_some_iff, ne_eq, not_false_eq_true, true_and]
        constructor
        · rintro ⟨_, ⟨ms, hms, rfl⟩, hb⟩
          rw [mem_setRemove] at hb
          exact ⟨⟨ms, hms, hb.1⟩, hb.2⟩
        · rintro ⟨⟨ms, hms, hb⟩, hbt⟩
          exact ⟨_, ⟨ms, hms, rfl⟩, mem_setRemove.2 ⟨hb, hbt⟩⟩
      · simp only [ha, hm, ↓reduceIte, ne_eq, not_false_eq_true, true_and]
        constructor
        · rintro ⟨ms, hms, hb⟩
          refine ⟨⟨ms, hms, hb⟩, ?_⟩
          rintro rfl
          obtain ⟨ks, hks, hak⟩ := u.symm a b ⟨ms, hms, hb⟩
          rw [hl] at hks
          obtain rfl := Option.some.inj hks
          exact hm hak
        · exact fun x => x.1
  refine ⟨g', e1, ?_, ?_, hnode, hint⟩
  · refine UGraph.of_sets ⟨?_, ?_⟩ ?_ ?_
    · rw [e2, hkeys]
      exact u.keys.filter _
    · intro a ms hms
      rw [hlook] at hms
      split at hms
      · cases hms
      · split at hms
        · rw [Option.map_eq_some_iff] at hms
          obtain ⟨ks, hks, rfl⟩ := hms
          exact nodup_setRemove (u.sets a ks (mem_of_lookup hks))
        · exact u.sets a ms (mem_of_lookup hms)
    · intro a b hab
      rw [hint] at hab ⊢
      exact ⟨u.symm a b hab.1, hab.2.2, hab.2.1⟩
    · intro a ha
      rw [hint] at ha
      exact u.irrefl a ha.1
  · have h1 : g'.length = (g.filter (fun x => x.1 != t)).length := by
      have := congrArg List.length e2
      simpa using this
    rw [h1]
    apply List.length_filter_lt_length_iff_exists.2
    exact ⟨(t, ns), h, by simp⟩

theorem simplify_spec : ∀ (n : Nat) (g : IntGraph), UGraph g → g.length ≤ n →
    ∃ st, simplify n g = some st ∧ st.Nodup ∧ ∀ x, x ∈ st ↔ IsNode g x
  | n, [], _, _ => ⟨[], by cases n <;> rfl, by simp, by simp [IsNode]⟩
  | 0, _ :: _, _, h => by simp at h
  | n + 1, e :: es, u, h => by
    obtain ⟨⟨t, ns⟩, hm⟩ : ∃ p, es.foldl smaller e = p := ⟨_, rfl⟩
    have hmin : minNode (e :: es) = some (t, ns) := by simp [minNode, hm]
    obtain ⟨m1, m2⟩ := minNode_spec hmin
    obtain ⟨g', e1, u', hlt, hnode, hint⟩ := remove_spec u m1
    obtain ⟨st, s1, s2, s3⟩ := simplify_spec n g' u' (by omega)
    refine ⟨t :: st, ?_, ?_, ?_⟩
    · simp only [simplify, hmin, e1, s1]
    · rw [List.nodup_cons]
      refine ⟨?_, s2⟩
      rw [s3, hnode]
      simp
    · intro x
      rw [List.mem_cons, s3, hnode]
      constructor
      · rintro (rfl | h)
        · exact isNode_iff.2 (List.mem_map.2 ⟨_, m1, rfl⟩)
        · exact h.1
      · intro hx
        by_cases hxt : x = t
        · exact Or.inl hxt
        · exact Or.inr ⟨hx, hxt⟩

/-! ## Colouring -/

theorem pickColour_some {n : Nat} {used : List Nat} (h : used.length < n) : ∃ c, pickColour n used = some c := by
  unfold pickColour
  cases hf : (List.range n).find? (fun c => !(used.contains c)) with
  | some c => exact ⟨c, rfl⟩
  | none =>
    exfalso
    rw [List.find?_eq_none] at hf
    have hsub : ∀ x ∈ List.range n, x ∈ used := by
      intro x hx
      have := hf x hx
      simpa using this
    have := (List.nodup_range (n := n)).length_le_of_subset hsub
    simp at this
    omega

theorem pickColour_spec {n : Nat} {used : List Nat} {c : Nat} (h : pickColour n used = some c) :
    c < n ∧ c ∉ used := by
  unfold pickColour at h
  have h1 := List.find?_some h
  have h2 := List.mem_of_find?_eq_some h
  refine ⟨by simpa using h2, by simpa using h1⟩

theorem colour_spec {g : IntGraph} (u : UGraph g) : ∀ (ts : List Nat) (al : List (Nat × Nat)), ts.Nodup →
    (∀ t ∈ ts, IsNode g t) → (∀ t ∈ ts, t ∉ al.map (·.1)) →
    (∀ a r, al.lookup a = some r → r < g.length) →
    (∀ a b r s, Interferes g a b → al.lookup a = some r → al.lookup b = some s → r ≠ s) →
    ∃ m, colour g ts al = some m ∧ (∀ x, x ∈ m.map (·.1) ↔ x ∈ ts ∨ x ∈ al.map (·.1)) ∧
      ((al.map (·.1)).Nodup → (m.map (·.1)).Nodup) ∧
      (∀ a r, m.lookup a = some r → r < g.length) ∧
      (∀ a b r s, Interferes g a b → m.lookup a = some r → m.lookup b = some s → r ≠ s)
  | [], al, _, _, _, hb, hp => ⟨al, rfl, by simp, id, hb, hp⟩
  | t :: ts, al, hn, hnode, hfresh, hb, hp => by
    obtain ⟨ns, hns⟩ := hnode t (by simp)
    have hlen : (ns.filterMap (fun n => al.lookup n)).length < g.length := by
      have h1 : (ns.filterMap (fun n => al.lookup n)).length ≤ ns.length := List.length_filterMap_le _ _
      have h2 : (t :: ns).Nodup := by
        rw [List.nodup_cons]
        exact ⟨fun ht => u.irrefl t ⟨ns, hns, ht⟩, u.sets t ns (mem_of_lookup hns)⟩
      have h3 : ∀ x ∈ t :: ns, x ∈ g.map (·.1) := by
        intro x hx
        simp only [List.mem_cons] at hx
        obtain rfl | hx := hx
        · exact isNode_iff.1 ⟨ns, hns⟩
        · obtain ⟨ms, hms, _⟩ := u.symm t x ⟨ns, hns, hx⟩
          exact isNode_iff.1 ⟨ms, hms⟩
      have h4 := h2.length_le_of_subset h3
      simp at h4
      omega
    obtain ⟨c, hc⟩ := pickColour_some hlen
    obtain ⟨c1, c2⟩ := pickColour_spec hc
    have hal : al.lookup t = none := lookup_none_iff.2 (hfresh t (by simp))
    have hlook : ∀ x, List.lookup x ((t, c) :: al) = if x = t then some c else al.lookup x := by
      intro x
      rw [List.lookup_cons]
      by_cases h : x = t
      · simp [h]
      · have : (x == t) = false := by simp [h]
        simp [h, this]
    have hnc : ∀ x r, Interferes g t x → al.lookup x = some r → r ≠ c := by
      rintro x r ⟨ms, hms, hx⟩ hr rfl
      rw [hns] at hms
      obtain rfl := Option.some.inj hms
      exact c2 (List.mem_filterMap.2 ⟨x, hx, hr⟩)
    obtain ⟨m, m1, m2, m3, m4, m5⟩ := colour_spec u ts ((t, c) :: al) hn.of_cons
      (fun x hx => hnode x (by simp [hx])) (by
        intro x hx
        simp only [List.map_cons, List.mem_cons, not_or]
        refine ⟨?_, hfresh x (by simp [hx])⟩
        rintro rfl
        exact (List.nodup_cons.1 hn).1 hx) (by
        intro a r h
        rw [hlook] at h
        split at h
        · obtain rfl := Option.some.inj h
          exact c1
        · exact hb a r h) (by
        intro a b r s hab ha hb'
        rw [hlook] at ha hb'
        split at ha
        · rename_i e
          subst e
          obtain rfl := Option.some.inj ha
          split at hb'
          · rename_i e
            subst e
            exact absurd hab (u.irrefl _)
          · exact (hnc b s hab hb').symm
        · split at hb'
          · rename_i e
            subst e
            obtain rfl := Option.some.inj hb'
            exact hnc a r (u.symm _ _ hab) ha
          · exact hp a b r s hab ha hb')
    refine ⟨m, ?_, ?_, ?_, m4, m5⟩
    · simp only [colour, hns, hc, hal, Option.isSome_none, Bool.false_eq_true, ↓reduceIte]
      exact m1
    · intro x
      rw [m2]
      simp only [List.map_cons, List.mem_cons]
      tauto
    · intro ha
      apply m3
      rw [List.map_cons, List.nodup_cons]
      exact ⟨hfresh t (by simp), ha⟩

theorem allocate_spec {g : IntGraph} (u : UGraph g) :
    ∃ m, allocateRegisters g = some m ∧ (m.map (·.1)).Nodup ∧ (∀ x, x ∈ m.map (·.1) ↔ IsNode g x) ∧
      (∀ a r, m.lookup a = some r → r < g.length) ∧
      (∀ a b r s, Interferes g a b → m.lookup a = some r → m.lookup b = some s → r ≠ s) := by
  obtain ⟨st, s1, s2, s3⟩ := simplify_spec g.length g u (Nat.le_refl _)
  obtain ⟨m, m1, m2, m3, m4, m5⟩ := colour_spec u st.reverse [] (List.nodup_reverse.2 s2)
    (fun t ht => (s3 t).1 (by simpa using ht)) (by simp) (by simp) (by simp)
  refine ⟨m, ?_, m3 (by simp), ?_, m4, m5⟩
  · simp [allocateRegisters, s1, m1]
  · intro x
    rw [m2]
    simp [s3]

/-! ## Independence of the representation -/

theorem sameGraph_len {g h : IntGraph} (ug : UGraph g) (uh : UGraph h) (s : SameGraph g h) :
    g.length = h.length := by
  have : (g.map (·.1)).Perm (h.map (·.1)) := by
    rw [List.perm_ext_iff_of_nodup ug.keys uh.keys]
    intro a
    rw [← isNode_iff, ← isNode_iff]
    exact s.1 a
  simpa using this.length_eq

theorem sameGraph_lookup {g h : IntGraph} (ug : UGraph g) (uh : UGraph h) (s : SameGraph g h) {a : Nat}
    {ns : List Nat} (hl : g.lookup a = some ns) : ∃ ms, h.lookup a = some ms ∧ ns.Perm ms := by
  obtain ⟨ms, hms⟩ := (s.1 a).1 ⟨ns, hl⟩
  refine ⟨ms, hms, ?_⟩
  rw [List.perm_ext_iff_of_nodup (ug.sets a ns (mem_of_lookup hl)) (uh.sets a ms (mem_of_lookup hms))]
  intro b
  have := s.2 a b
  simp only [Interferes, hl, hms, Option.some.injEq, exists_eq_left'] at this
  exact this

theorem sameGraph_symm {g h : IntGraph} (s : SameGraph g h) : SameGraph h g :=
  ⟨fun a => (s.1 a).symm, fun a b => (s.2 a b).symm⟩

theorem sameGraph_min {g h : IntGraph} (ug : UGraph g) (uh : UGraph h) (s : SameGraph g h) {t t' : Nat}
    {ns ns' : List Nat} (h1 : minNode g = some (t, ns)) (h2 : minNode h = some (t', ns')) : t = t' := by
  obtain ⟨m1, m2⟩ := minNode_spec h1
  obtain ⟨k1, k2⟩ := minNode_spec h2
  obtain ⟨ms, hms, p⟩ := sameGraph_lookup ug uh s (lookup_eq_of_mem ug.keys m1)
  obtain ⟨ms', hms', p'⟩ := sameGraph_lookup uh ug (sameGraph_symm s) (lookup_eq_of_mem uh.keys k1)
  have a1 := m2 _ (mem_of_lookup hms')
  have a2 := k2 _ (mem_of_lookup hms)
  have l1 := p.length_eq
  have l2 := p'.length_eq
  unfold KeyLe at a1 a2
  simp only at a1 a2
  omega

theorem simplify_same : ∀ (n : Nat) (g h : IntGraph), UGraph g → UGraph h → SameGraph g h →
    simplify n g = simplify n h
  | n, [], [], _, _, _ => rfl
  | n, [], e :: es, ug, uh, s => by simpa using sameGraph_len ug uh s
  | n, e :: es, [], ug, uh, s => by simpa using sameGraph_len ug uh s
  | 0, _ :: _, _ :: _, _, _, _ => rfl
  | n + 1, e :: es, x :: xs, ug, uh, s => by
    obtain ⟨⟨t, ns⟩, hm⟩ : ∃ p, es.foldl smaller e = p := ⟨_, rfl⟩
    have h1 : minNode (e :: es) = some (t, ns) := by simp [minNode, hm]
    obtain ⟨⟨t', ns'⟩, hm'⟩ : ∃ p, xs.foldl smaller x = p := ⟨_, rfl⟩
    have h2 : minNode (x :: xs) = some (t', ns') := by simp [minNode, hm']
    obtain rfl := sameGraph_min ug uh s h1 h2
    obtain ⟨g', e1, u', _, hnode, hint⟩ := remove_spec ug (minNode_spec h1).1
    obtain ⟨k', f1, v', _, knode, kint⟩ := remove_spec uh (minNode_spec h2).1
    have s' : SameGraph g' k' := by
      refine ⟨fun a => ?_, fun a b => ?_⟩
      · rw [hnode, knode, s.1]
      · rw [hint, kint, s.2]
    simp only [simplify, h1, h2, e1, f1, simplify_same n g' k' u' v' s']

theorem find_congr {α : Type} {p q : α → Bool} : ∀ {l : List α}, (∀ x ∈ l, p x = q x) → l.find? p = l.find? q
  | [], _ => rfl
  | x :: l, h => by
    rw [List.find?_cons, List.find?_cons, h x (by simp), find_congr (fun y hy => h y (by simp [hy]))]

theorem pickColour_congr {n : Nat} {u v : List Nat} (h : ∀ x, x ∈ u ↔ x ∈ v) : pickColour n u = pickColour n v := by
  unfold pickColour
  apply find_congr
  intro x _
  have := h x
  by_cases hx : x ∈ u
  · simp [hx, this.1 hx]
  · have : x ∉ v := fun hv => hx (this.2 hv)
    simp [hx, this]

theorem colour_same {g h : IntGraph} (ug : UGraph g) (uh : UGraph h) (s : SameGraph g h) :
    ∀ (ts : List Nat) (al : List (Nat × Nat)), (∀ t ∈ ts, IsNode g t) → colour g ts al = colour h ts al
  | [], _, _ => rfl
  | t :: ts, al, hn => by
    obtain ⟨ns, hns⟩ := hn t (by simp)
    obtain ⟨ms, hms, p⟩ := sameGraph_lookup ug uh s hns
    have hp : pickColour g.length (ns.filterMap (fun n => al.lookup n)) =
        pickColour h.length (ms.filterMap (fun n => al.lookup n)) := by
      rw [sameGraph_len ug uh s]
      apply pickColour_congr
      intro x
      simp only [List.mem_filterMap]
      constructor
      · rintro ⟨a, ha, hx⟩
        exact ⟨a, p.mem_iff.1 ha, hx⟩
      · rintro ⟨a, ha, hx⟩
        exact ⟨a, p.mem_iff.2 ha, hx⟩
    simp only [colour, hns, hms, hp]
    split
    · rfl
    · split
      · rfl
      · exact colour_same ug uh s ts _ (fun x hx => hn x (by simp [hx]))

/-! ## Renumbering -/

theorem mem_insertByKey {x y : Nat × Nat} : ∀ {l : List (Nat × Nat)}, y ∈ insertByKey x l ↔ y = x ∨ y ∈ l
  | [] => by simp [insertByKey]
  | z :: l => by
    unfold insertByKey
    split
    · simp
    · simp only [List.mem_cons, mem_insertByKey (l := l)]
      tauto

theorem mem_sortByKey {y : Nat × Nat} : ∀ {l : List (Nat × Nat)}, y ∈ sortByKey l ↔ y ∈ l
  | [] => by simp [sortByKey]
  | x :: l => by
    rw [sortByKey, mem_insertByKey, mem_sortByKey, List.mem_cons]

theorem insertByKey_perm {x : Nat × Nat} : ∀ {l : List (Nat × Nat)}, (insertByKey x l).Perm (x :: l)
  | [] => .refl _
  | z :: l => by
    unfold insertByKey
    split
    · exact .refl _
    · exact ((insertByKey_perm (x := x) (l := l)).cons z).trans (List.Perm.swap x z l)

theorem sortByKey_perm : ∀ {l : List (Nat × Nat)}, (sortByKey l).Perm l
  | [] => .refl _
  | x :: l => insertByKey_perm.trans ((sortByKey_perm (l := l)).cons x)

theorem mem_regOrder_aux {r : Nat} : ∀ (l : List (Nat × Nat)) (m : List Nat),
    r ∈ l.foldl (fun m e => setInsert m e.2) m ↔ r ∈ m ∨ ∃ t, (t, r) ∈ l
  | [], m => by simp
  | (a, s) :: l, m => by
    rw [List.foldl_cons, mem_regOrder_aux l, mem_setInsert]
    simp only [List.mem_cons, Prod.mk.injEq]
    constructor
    · rintro ((h | rfl) | ⟨t, h⟩)
      · exact Or.inl h
      · exact Or.inr ⟨a, Or.inl ⟨rfl, rfl⟩⟩
      · exact Or.inr ⟨t, Or.inr h⟩
    · rintro (h | ⟨t, ⟨rfl, rfl⟩ | h⟩)
      · exact Or.inl (Or.inl h)
      · exact Or.inl (Or.inr rfl)
      · exact Or.inr ⟨t, h⟩

theorem mem_regOrder {r : Nat} {l : List (Nat × Nat)} : r ∈ regOrder l ↔ ∃ t, (t, r) ∈ l := by
  unfold regOrder
  rw [mem_regOrder_aux]
  simp

theorem nodup_regOrder {l : List (Nat × Nat)} : (regOrder l).Nodup := by
  unfold regOrder
  suffices h : ∀ (l : List (Nat × Nat)) (m : List Nat), m.Nodup →
      (l.foldl (fun m e => setInsert m e.2) m).Nodup from h l [] List.nodup_nil
  intro l
  induction l with
  | nil => exact fun m h => h
  | cons e l ih => exact fun m h => ih _ (nodup_setInsert h)

theorem idxOf_inj {l : List Nat} {x y : Nat} (hx : x ∈ l) (h : l.idxOf x = l.idxOf y) : x = y := by
  have h1 : l.idxOf x < l.length := List.idxOf_lt_length_iff.2 hx
  have h2 : l.idxOf y < l.length := h ▸ h1
  have e1 := List.getElem_idxOf h1
  have e2 := List.getElem_idxOf h2
  rw [← e1, ← e2]
  simp only [h]

/-- The renumbered assignment: same keys without the inlined ones, registers in first-seen order. -/
theorem normalise_spec {al : List (Nat × Nat)} {inlined : List Nat} (hk : (al.map (·.1)).Nodup) :
    ((normaliseRegisters al inlined).1.map (·.1)).Nodup ∧
    (∀ a r, (normaliseRegisters al inlined).1.lookup a = some r ↔
      a ∉ inlined ∧ ∃ s, al.lookup a = some s ∧
        r = (regOrder (sortByKey (al.filter (fun e => !(inlined.contains e.1))))).idxOf s) := by
  have hkeys : ((normaliseRegisters al inlined).1.map (·.1)).Nodup := by
    unfold normaliseRegisters
    simp only [List.map_map]
    have : ((fun x : Nat × Nat => x.1) ∘ fun e : Nat × Nat =>
        (e.1, (regOrder (sortByKey (al.filter (fun e => !(inlined.contains e.1))))).idxOf e.2)) =
        fun e => e.1 := rfl
    rw [this, (sortByKey_perm.map _).nodup_iff]
    exact (List.filter_sublist.map _).nodup hk
  refine ⟨hkeys, ?_⟩
  intro a r
  constructor
  · intro h
    have h := mem_of_lookup h
    simp only [normaliseRegisters, List.mem_map, mem_sortByKey, List.mem_filter, Prod.mk.injEq] at h
    obtain ⟨⟨b, s⟩, ⟨hm, hi⟩, rfl, rfl⟩ := h
    exact ⟨by simpa using hi, s, lookup_eq_of_mem hk hm, rfl⟩
  · rintro ⟨hi, s, hs, rfl⟩
    apply lookup_eq_of_mem hkeys
    simp only [normaliseRegisters, List.mem_map, mem_sortByKey, List.mem_filter, Prod.mk.injEq]
    exact ⟨(a, s), ⟨mem_of_lookup hs, by simpa using hi⟩, rfl, rfl⟩

end Verif.Flow
