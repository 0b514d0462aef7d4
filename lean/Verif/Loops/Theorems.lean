import Verif.Loops.Lemmas
import Verif.Structure.Model
/-!
# C95: the description of the loops of a control-flow graph

The loops are the natural loops with their latches and exits; they are nested or disjoint, and each
has as parent the innermost loop around it.
-/

namespace Verif.Loops

open Verif.Graph Verif.Dom

/-- What is known of the list of loops. -/
structure Good (g : Graph) (entry : Nat) (es : List (Nat × List Nat)) : Prop where
  sorted : (es.map (·.1)).Pairwise fun a b => a < b
  header : ∀ h, h ∈ es.map (·.1) ↔
    ∃ t, Reach g.Edge entry t ∧ g.Edge t h ∧ Dominates g.Edge entry h t
  nodup : ∀ e ∈ es, e.2.Nodup
  nodes : ∀ e ∈ es, ∀ n, n ∈ e.2 ↔ InNaturalLoop g.Edge entry e.1 n

theorem keys_lookup {raw : List (Nat × List Nat)} (hk : (raw.map (·.1)).Nodup) {h : Nat} :
    h ∈ raw.map (·.1) ↔ (raw.lookup h).isSome := by
  constructor
  · intro k
    obtain ⟨⟨a, b⟩, he, rfl⟩ := List.mem_map.1 k
    rw [(mem_lookup hk).1 he]; rfl
  · intro k
    obtain ⟨l, hl⟩ := Option.isSome_iff_exists.1 k
    exact List.mem_map.2 ⟨_, (mem_lookup hk).2 hl, rfl⟩

theorem sortLabels_lt {l : List Nat} (h : l.Nodup) :
    (sortLabels l).Pairwise fun a b => a < b := by
  have hn : (sortLabels l).Nodup := sortLabels_perm.nodup_iff.2 h
  refine (sortLabels_le.and hn).imp ?_
  rintro a b ⟨h1, h2⟩
  omega

theorem good_entries {ops : List Op} {g : Graph} (h : run ops = some g) {entry fuel : Nat} {d : Dom}
    (hf : g.labels.length + 3 ≤ fuel) (hd : calculateDom g fuel entry = some d) :
    ∃ raw, findLoops g d = some raw ∧ Good g entry (entries raw) := by
  obtain ⟨raw, e, hr⟩ := C62_natural_loops ops g h entry fuel d hf hd
  have hk := findLoops_keys e
  have keys : (entries raw).map (·.1) = sortLabels (raw.map (·.1)) := by
    simp [entries, Function.comp_def]
  have ent : ∀ x ∈ entries raw, raw.lookup x.1 = some x.2 := by
    intro x hx
    obtain ⟨k, hk', rfl⟩ := List.mem_map.1 hx
    obtain ⟨l, hl⟩ := Option.isSome_iff_exists.1 ((keys_lookup hk).1 (mem_sortLabels.1 hk'))
    simp [hl]
  refine ⟨raw, e, ?_, ?_, ?_, ?_⟩
  · rw [keys]; exact sortLabels_lt hk
  · intro x
    rw [keys, mem_sortLabels, keys_lookup hk]
    exact (hr x).1.symm
  · exact fun x hx => ((hr x.1).2 _ (ent x hx)).1
  · exact fun x hx => ((hr x.1).2 _ (ent x hx)).2

section
variable {g : Graph} {entry : Nat} {es : List (Nat × List Nat)}

theorem at_spec {i : Nat} (hi : i < es.length) : (headerAt es i, nodesAt es i) ∈ es := by
  simp only [headerAt, nodesAt, List.getElem?_eq_getElem hi, Option.map_some, Option.getD_some]
  exact List.getElem_mem hi

theorem header_lt (G : Good g entry es) {i j : Nat} (hi : i < j) (hj : j < es.length) :
    headerAt es i < headerAt es j := by
  have := List.pairwise_iff_getElem.1 G.sorted i j (by simp; omega) (by simpa using hj) hi
  simpa [headerAt, List.getElem?_eq_getElem (show i < es.length by omega),
    List.getElem?_eq_getElem hj] using this

theorem header_ne (G : Good g entry es) {i j : Nat} (h : i ≠ j) (hi : i < es.length)
    (hj : j < es.length) : headerAt es i ≠ headerAt es j := by
  rcases Nat.lt_or_gt_of_ne h with k | k
  · have := header_lt G k hj; omega
  · have := header_lt G k hi; omega

theorem mem_nodesAt (G : Good g entry es) {i : Nat} (hi : i < es.length) (n : Nat) :
    n ∈ nodesAt es i ↔ InNaturalLoop g.Edge entry (headerAt es i) n :=
  G.nodes _ (at_spec hi) n

theorem header_mem (G : Good g entry es) {i : Nat} (hi : i < es.length) :
    headerAt es i ∈ nodesAt es i := by
  rw [mem_nodesAt G hi]
  obtain ⟨t, a, b, c⟩ := (G.header _).1 (List.mem_map_of_mem (at_spec hi))
  exact ⟨t, a, b, c, .inl rfl⟩

/-- Two loops with a common node are nested, and then the inner one is smaller. -/
theorem nest_at (G : Good g entry es) {i j x : Nat} (hij : i ≠ j) (hi : i < es.length)
    (hj : j < es.length) (xi : x ∈ nodesAt es i) (xj : x ∈ nodesAt es j) :
    ((∀ y ∈ nodesAt es j, y ∈ nodesAt es i) ∧ (nodesAt es j).length < (nodesAt es i).length) ∨
    ((∀ y ∈ nodesAt es i, y ∈ nodesAt es j) ∧ (nodesAt es i).length < (nodesAt es j).length) := by
  rcases loops_nest (header_ne G hij hi hj) ((mem_nodesAt G hi x).1 xi) ((mem_nodesAt G hj x).1 xj)
    with ⟨a, b⟩ | ⟨a, b⟩
  · have s : ∀ y ∈ nodesAt es j, y ∈ nodesAt es i := fun y hy =>
      (mem_nodesAt G hi y).2 (a y ((mem_nodesAt G hj y).1 hy))
    exact .inl ⟨s, strict_len (G.nodup _ (at_spec hj)) s (header_mem G hi)
      fun k => b ((mem_nodesAt G hj _).1 k)⟩
  · have s : ∀ y ∈ nodesAt es i, y ∈ nodesAt es j := fun y hy =>
      (mem_nodesAt G hj y).2 (a y ((mem_nodesAt G hi y).1 hy))
    exact .inr ⟨s, strict_len (G.nodup _ (at_spec hi)) s (header_mem G hj)
      fun k => b ((mem_nodesAt G hi _).1 k)⟩

theorem overlapping_nil (G : Good g entry es) : overlapping es = [] := by
  apply List.eq_nil_iff_forall_not_mem.2
  rintro ⟨i, j⟩ hm
  simp only [overlapping, List.mem_flatMap, List.mem_range, List.mem_map, List.mem_filter,
    Bool.and_eq_true, decide_eq_true_eq, Prod.mk.injEq] at hm
  obtain ⟨i', hi, j', ⟨hj, hlt, ho⟩, rfl, rfl⟩ := hm
  simp only [overlaps, Bool.and_eq_true, Bool.not_eq_true', Bool.and_eq_false_iff,
    decide_eq_false_iff_not] at ho
  obtain ⟨⟨h1, h2⟩, h3⟩ := ho
  have : ∃ x, x ∈ nodesAt es i' ∧ x ∈ nodesAt es j' := by
    apply Classical.byContradiction
    intro c
    have : isDisjoint (nodesAt es i') (nodesAt es j') = true :=
      isDisjoint_iff.2 fun y hy k => c ⟨y, hy, k⟩
    simp [this] at h3
  obtain ⟨x, xi, xj⟩ := this
  rcases nest_at G (by omega) hi hj xi xj with ⟨a, b⟩ | ⟨a, b⟩
  · rcases h2 with h2 | h2
    · exact h2 b
    · rw [isSubset_iff.2 a] at h2; cases h2
  · rcases h1 with h1 | h1
    · exact h1 b
    · rw [isSubset_iff.2 a] at h1; cases h1

/-- Loop `j` is around loop `i`, as the code tests it. -/
def Around (es : List (Nat × List Nat)) (i j : Nat) : Prop :=
  i ≠ j ∧ (nodesAt es i).length < (nodesAt es j).length ∧ ∀ y ∈ nodesAt es i, y ∈ nodesAt es j

/-- The parent among the loops `js`. -/
def Best (es : List (Nat × List Nat)) (i : Nat) (js : List Nat) : Option Nat → Prop
  | none => ∀ j ∈ js, ¬ Around es i j
  | some c => c ∈ js ∧ Around es i c ∧
      ∀ j ∈ js, Around es i j → (nodesAt es c).length ≤ (nodesAt es j).length

theorem best_step {i j : Nat} {js : List Nat} {cur : Option Nat} (h : Best es i js cur) :
    Best es i (js ++ [j]) (parentStep es i cur j) := by
  have keep : ¬ Around es i j → Best es i (js ++ [j]) cur := by
    intro na
    cases cur with
    | none =>
      intro k hk
      rcases List.mem_append.1 hk with hk | hk
      · exact h k hk
      · rw [List.mem_singleton.1 hk]; exact na
    | some c =>
      refine ⟨List.mem_append_left _ h.1, h.2.1, ?_⟩
      intro k hk
      rcases List.mem_append.1 hk with hk | hk
      · exact h.2.2 k hk
      · rw [List.mem_singleton.1 hk]; exact fun a => absurd a na
  unfold parentStep
  by_cases e : i = j
  · rw [if_pos (by simpa using e)]
    exact keep fun a => a.1 e
  · rw [if_neg (by simpa using e)]
    by_cases a : (nodesAt es i).length < (nodesAt es j).length ∧ isSubset (nodesAt es i) (nodesAt es j) = true
    · rw [if_pos (by simpa using a)]
      have ar : Around es i j := ⟨e, a.1, isSubset_iff.1 a.2⟩
      cases cur with
      | none =>
        refine ⟨by simp, ar, ?_⟩
        intro k hk ak
        rcases List.mem_append.1 hk with hk | hk
        · exact absurd ak (h k hk)
        · rw [List.mem_singleton.1 hk]; exact Nat.le_refl _
      | some c =>
        dsimp only
        split
        · next hr =>
          simp only [Bool.or_eq_true, Bool.and_eq_true, decide_eq_true_eq, beq_iff_eq] at hr
          refine ⟨by simp, ar, ?_⟩
          intro k hk ak
          rcases List.mem_append.1 hk with hk | hk
          · have := h.2.2 k hk ak
            omega
          · rw [List.mem_singleton.1 hk]; exact Nat.le_refl _
        · next hr =>
          simp only [Bool.or_eq_true, Bool.and_eq_true, decide_eq_true_eq, beq_iff_eq] at hr
          refine ⟨List.mem_append_left _ h.1, h.2.1, ?_⟩
          intro k hk ak
          rcases List.mem_append.1 hk with hk | hk
          · exact h.2.2 k hk ak
          · rw [List.mem_singleton.1 hk]; omega
    · rw [if_neg (by simpa using a)]
      exact keep fun ar => a ⟨ar.2.1, isSubset_iff.2 ar.2.2⟩

theorem best_fold {i : Nat} (ks : List Nat) : ∀ (js : List Nat) (cur : Option Nat),
    Best es i js cur → Best es i (js ++ ks) (ks.foldl (parentStep es i) cur) := by
  induction ks with
  | nil => intro js cur h; simpa using h
  | cons k ks ih =>
    intro js cur h
    have := ih (js ++ [k]) _ (best_step (j := k) h)
    simpa using this

theorem parentAt_best (i : Nat) : Best es i (List.range es.length) (parentAt es i) := by
  have := best_fold (es := es) (i := i) (List.range es.length) [] none (fun j hj => by cases hj)
  rw [List.nil_append] at this
  exact this

/-- A loop that contains another is around it. -/
theorem around_of (G : Good g entry es) {i j : Nat} (hij : i ≠ j) (hi : i < es.length)
    (hj : j < es.length) (h : ∀ y ∈ nodesAt es i, y ∈ nodesAt es j) : Around es i j := by
  refine ⟨hij, ?_, h⟩
  rcases nest_at G hij hi hj (header_mem G hi) (h _ (header_mem G hi)) with ⟨a, b⟩ | ⟨a, b⟩
  · have := (G.nodup _ (at_spec hi)).length_le_of_subset h
    exact absurd this (by simpa using b)
  · exact b

end

/-! ## The property -/

/-- **C95.** The loops are described in the order of their headers, which are the targets of the back
edges. The nodes of each are its natural loop, its latches the sources of its back edges, and its
exits the edges that leave it. -/
theorem C95_loops (ops : List Op) (g : Graph) (h : run ops = some g) (entry fuel : Nat) (d : Dom)
    (hf : g.labels.length + 3 ≤ fuel) (hd : calculateDom g fuel entry = some d) :
    ∃ info, compute g d = some info ∧
      (info.loops.map (·.header)).Pairwise (fun a b => a < b) ∧
      (∀ x, x ∈ info.loops.map (·.header) ↔
        ∃ t, Reach g.Edge entry t ∧ g.Edge t x ∧ Dominates g.Edge entry x t) ∧
      ∀ L ∈ info.loops, L.nodes.Nodup ∧ (∀ n, n ∈ L.nodes ↔ InNaturalLoop g.Edge entry L.header n) ∧
        L.latches.Pairwise (fun a b => a < b) ∧
        (∀ t, t ∈ L.latches ↔
          Reach g.Edge entry t ∧ g.Edge t L.header ∧ Dominates g.Edge entry L.header t) ∧
        L.exits.Nodup ∧
        (∀ a b, (a, b) ∈ L.exits ↔ InNaturalLoop g.Edge entry L.header a ∧ g.Edge a b ∧
          ¬ InNaturalLoop g.Edge entry L.header b) := by
  have w := ((C26_history ops).2 g h).wf
  obtain ⟨raw, e, G⟩ := good_entries h hf hd
  obtain ⟨doms, ed, hdm⟩ := (C60_dominates ops g h entry fuel d hf hd).2
  refine ⟨fromLoops g doms raw, by simp [compute, e, ed], ?_, ?_, ?_⟩
  · have : (fromLoops g doms raw).loops.map (·.header) = (entries raw).map (·.1) := by
      apply List.ext_getElem (by simp [fromLoops])
      intro i h1 h2
      have : i < (entries raw).length := by simpa using h2
      simp [fromLoops, headerAt, List.getElem?_eq_getElem this]
    rw [this]; exact G.sorted
  · intro x
    have : (fromLoops g doms raw).loops.map (·.header) = (entries raw).map (·.1) := by
      apply List.ext_getElem (by simp [fromLoops])
      intro i h1 h2
      have : i < (entries raw).length := by simpa using h2
      simp [fromLoops, headerAt, List.getElem?_eq_getElem this]
    rw [this]; exact G.header x
  · intro L hL
    simp only [fromLoops, List.mem_map, List.mem_range] at hL
    obtain ⟨i, hi, rfl⟩ := hL
    have nd := G.nodup _ (at_spec hi)
    refine ⟨nd, mem_nodesAt G hi, ?_, ?_, ?_, ?_⟩
    · exact sortLabels_lt ((w.nps _).sublist List.filter_sublist)
    · intro t
      simp only [latches, mem_sortLabels, List.mem_filter, hdm]
      have : t ∈ g.parents (headerAt (entries raw) i) ↔ g.Edge t (headerAt (entries raw) i) :=
        (w.sym _ _).symm
      rw [this]
      exact ⟨fun ⟨a, b, c⟩ => ⟨b, a, c⟩, fun ⟨a, b, c⟩ => ⟨b, a, c⟩⟩
    · refine List.pairwise_flatMap.2 ⟨?_, ?_⟩
      · intro n _
        refine List.pairwise_map.2 (List.Pairwise.imp (R := (· ≠ ·)) (fun hab e => hab (Prod.mk.inj e).2) ?_)
        exact (sortLabels_perm.nodup_iff.2 (w.ncs n)).sublist List.filter_sublist
      · refine List.Pairwise.imp ?_ (sortLabels_perm.nodup_iff.2 nd)
        intro a b hab p ha q hb e
        subst e
        simp only [List.mem_map] at ha hb
        obtain ⟨_, -, rfl⟩ := ha
        obtain ⟨_, -, e⟩ := hb
        exact hab (Prod.mk.inj e).1.symm
    · intro a b
      simp only [exits, List.mem_flatMap, mem_sortLabels, List.mem_map, List.mem_filter,
        Graph.childrenSorted, Prod.mk.injEq]
      constructor
      · rintro ⟨n, hn, s, ⟨hs, hc⟩, rfl, rfl⟩
        refine ⟨(mem_nodesAt G hi _).1 hn, hs, fun k => ?_⟩
        simp [(mem_nodesAt G hi _).2 k] at hc
      · rintro ⟨ha, hE, hb⟩
        refine ⟨a, (mem_nodesAt G hi _).2 ha, b, ⟨hE, ?_⟩, rfl, rfl⟩
        simpa using fun k => hb ((mem_nodesAt G hi _).1 k)

/-- **C95.** The loops of a graph never overlap without nesting, whether it is reducible or not. -/
theorem C95_no_overlap (ops : List Op) (g : Graph) (h : run ops = some g) (entry fuel : Nat) (d : Dom)
    (hf : g.labels.length + 3 ≤ fuel) (hd : calculateDom g fuel entry = some d) (info : Info)
    (hc : compute g d = some info) :
    info.overlapping = [] ∧
    ∀ L ∈ info.loops, ∀ M ∈ info.loops, ∀ x, x ∈ L.nodes → x ∈ M.nodes →
      (∀ y ∈ L.nodes, y ∈ M.nodes) ∨ (∀ y ∈ M.nodes, y ∈ L.nodes) := by
  obtain ⟨raw, e, G⟩ := good_entries h hf hd
  simp only [compute, e, Option.bind_eq_bind, Option.bind_some, Option.bind_eq_some_iff,
    Option.some.injEq] at hc
  obtain ⟨doms, -, rfl⟩ := hc
  refine ⟨overlapping_nil G, ?_⟩
  intro L hL M hM x xL xM
  simp only [fromLoops, List.mem_map, List.mem_range] at hL hM
  obtain ⟨i, hi, rfl⟩ := hL
  obtain ⟨j, hj, rfl⟩ := hM
  by_cases hij : i = j
  · subst hij; exact .inl fun y hy => hy
  · rcases nest_at G hij hi hj xL xM with ⟨a, -⟩ | ⟨a, -⟩
    · exact .inr a
    · exact .inl a

/-- **C95.** The parent of a loop is the innermost other loop that contains it, and it has none only
if no other loop does. -/
theorem C95_parent (ops : List Op) (g : Graph) (h : run ops = some g) (entry fuel : Nat) (d : Dom)
    (hf : g.labels.length + 3 ≤ fuel) (hd : calculateDom g fuel entry = some d) (info : Info)
    (hc : compute g d = some info) (i : Nat) (L : Loop) (hL : info.loops[i]? = some L) :
    (L.parent = none → ∀ M ∈ info.loops, M.header ≠ L.header → ¬ ∀ y ∈ L.nodes, y ∈ M.nodes) ∧
    (∀ j, L.parent = some j → ∃ M, info.loops[j]? = some M ∧ M.header ≠ L.header ∧
      (∀ y ∈ L.nodes, y ∈ M.nodes) ∧
      ∀ K ∈ info.loops, K.header ≠ L.header → (∀ y ∈ L.nodes, y ∈ K.nodes) →
        ∀ y ∈ M.nodes, y ∈ K.nodes) := by
  obtain ⟨raw, e, G⟩ := good_entries h hf hd
  simp only [compute, e, Option.bind_eq_bind, Option.bind_some, Option.bind_eq_some_iff,
    Option.some.injEq] at hc
  obtain ⟨doms, -, rfl⟩ := hc
  simp only [fromLoops, List.getElem?_map, Option.map_eq_some_iff] at hL
  obtain ⟨i', hi', rfl⟩ := hL
  obtain ⟨hi, rfl⟩ : i < (entries raw).length ∧ i = i' := by
    rw [List.getElem?_eq_some_iff] at hi'
    obtain ⟨a, b⟩ := hi'
    exact ⟨by simpa using a, by simpa using b⟩
  have best := parentAt_best (es := entries raw) i
  constructor
  · intro hp M hM hne hsub
    simp only [fromLoops, List.mem_map, List.mem_range] at hM
    obtain ⟨j, hj, rfl⟩ := hM
    have hp : parentAt (entries raw) i = none := hp
    rw [hp] at best
    refine best j (by simpa using hj) (around_of G ?_ hi hj hsub)
    rintro rfl
    exact hne rfl
  · intro j hp
    have hp : parentAt (entries raw) i = some j := hp
    rw [hp] at best
    obtain ⟨hj, ar, hmin⟩ := best
    have hj : j < (entries raw).length := by simpa using hj
    refine ⟨_, by simp only [fromLoops, List.getElem?_map, List.getElem?_range hj, Option.map_some]; rfl,
      header_ne G (Ne.symm ar.1) hj hi, ar.2.2, ?_⟩
    intro K hK hne hsub
    simp only [fromLoops, List.mem_map, List.mem_range] at hK
    obtain ⟨k, hk, rfl⟩ := hK
    have ak : Around (entries raw) i k := around_of G (by rintro rfl; exact hne rfl) hi hk hsub
    by_cases hjk : j = k
    · subst hjk; exact fun y hy => hy
    · have hx := header_mem G hi
      rcases nest_at G hjk hj hk (ar.2.2 _ hx) (hsub _ hx) with ⟨a, b⟩ | ⟨a, b⟩
      · have := hmin k (by simpa using hk) ak
        omega
      · exact a

/-- **C95.** The children of a loop are the loops whose parent it is, in order. -/
theorem C95_children (g : Graph) (d : Dom) (info : Info) (hc : compute g d = some info) (j : Nat)
    (M : Loop) (hM : info.loops[j]? = some M) :
    M.children.Pairwise (fun a b => a < b) ∧
    ∀ i, i ∈ M.children ↔ ∃ L, info.loops[i]? = some L ∧ L.parent = some j := by
  simp only [compute, Option.bind_eq_bind, Option.bind_eq_some_iff, Option.some.injEq] at hc
  obtain ⟨raw, -, doms, -, rfl⟩ := hc
  simp only [fromLoops, List.getElem?_map, Option.map_eq_some_iff] at hM
  obtain ⟨j', hj', rfl⟩ := hM
  obtain rfl : j = j' := by
    rw [List.getElem?_eq_some_iff] at hj'
    obtain ⟨a, b⟩ := hj'
    simpa using b
  refine ⟨List.pairwise_lt_range.sublist List.filter_sublist, ?_⟩
  intro i
  simp only [childrenAt, List.mem_filter, List.mem_range, beq_iff_eq, fromLoops, List.getElem?_map,
    Option.map_eq_some_iff]
  constructor
  · rintro ⟨hi, hp⟩
    exact ⟨_, ⟨i, List.getElem?_range hi, rfl⟩, hp⟩
  · rintro ⟨L, ⟨i', hi', rfl⟩, hp⟩
    rw [List.getElem?_eq_some_iff] at hi'
    obtain ⟨a, b⟩ := hi'
    obtain rfl : i = i' := by simpa using b
    exact ⟨by simpa using a, hp⟩

/-- **C95.** So the decompiler never gives up because of the nesting of the loops it was given. -/
theorem C95_forest_valid (ops : List Op) (g : Graph) (h : run ops = some g) (entry fuel : Nat)
    (d : Dom) (hf : g.labels.length + 3 ≤ fuel) (hd : calculateDom g fuel entry = some d)
    (raw : List (Nat × List Nat)) (hr : findLoops g d = some raw) (pd : Dom) :
    (Structure.LoopForest.new g pd raw).valid = true := by
  obtain ⟨raw', e, G⟩ := good_entries h hf hd
  rw [hr] at e
  obtain rfl := Option.some.inj e
  simp only [Structure.LoopForest.new]
  generalize hL : (sortLabels (raw.map (·.1))).map (fun h =>
    Structure.LoopInfo.mk h ((raw.lookup h).getD [])
      (Structure.follow g pd ((raw.lookup h).getD [])) none) = loops
  have at_ : ∀ e ∈ loops.zipIdx, e.2 < (entries raw).length ∧ e.1.nodes = nodesAt (entries raw) e.2 := by
    rintro ⟨l, i⟩ he
    have he := List.mem_zipIdx_iff_getElem?.1 he
    simp only [← hL, List.getElem?_map, Option.map_eq_some_iff] at he
    obtain ⟨x, hx, rfl⟩ := he
    have hi := (List.getElem?_eq_some_iff.1 hx).1
    refine ⟨by simpa [entries] using hi, ?_⟩
    simp [nodesAt, entries, hx]
  have fold : ∀ (i : Nat), i < (entries raw).length → ∀ (es : List (Structure.LoopInfo × Nat)),
      (∀ e ∈ es, e.2 < (entries raw).length ∧ e.1.nodes = nodesAt (entries raw) e.2) →
      ∀ s : Option (Nat × Nat) × Bool, s.2 = true →
      (es.foldl (Structure.parentStep i (nodesAt (entries raw) i)) s).2 = true := by
    intro i hi es
    induction es with
    | nil => intro _ s hs; exact hs
    | cons e es ih =>
      intro he s hs
      rw [List.foldl_cons]
      refine ih (fun x hx => he x (List.mem_cons_of_mem _ hx)) _ ?_
      obtain ⟨h1, h2⟩ := he e (by simp)
      unfold Structure.parentStep
      rw [h2]
      split
      · exact hs
      · next hne =>
        have hne : i ≠ e.2 := fun k => hne (by simp [k])
        split
        · dsimp only
          repeat' split
          all_goals exact hs
        · next hna =>
          split
          · next hbad =>
            exfalso
            simp only [Bool.and_eq_true, Bool.not_eq_true'] at hbad
            have : ∃ x, x ∈ nodesAt (entries raw) i ∧ x ∈ nodesAt (entries raw) e.2 := by
              apply Classical.byContradiction
              intro c
              have : isDisjoint (nodesAt (entries raw) i) (nodesAt (entries raw) e.2) = true :=
                isDisjoint_iff.2 fun y hy k => c ⟨y, hy, k⟩
              exact absurd (this.symm.trans hbad.2) (by simp)
            obtain ⟨x, xi, xj⟩ := this
            rcases nest_at G hne hi h1 xi xj with ⟨a, -⟩ | ⟨a, b⟩
            · have : isSubset (nodesAt (entries raw) e.2) (nodesAt (entries raw) i) = true :=
                isSubset_iff.2 a
              exact absurd (this.symm.trans hbad.1) (by simp)
            · apply hna
              rw [Bool.and_eq_true, decide_eq_true_eq]
              exact ⟨b, isSubset_iff.2 a⟩
          · exact hs
  rw [List.all_eq_true]
  intro r hm
  obtain ⟨e, he, rfl⟩ := List.mem_map.1 hm
  obtain ⟨h1, h2⟩ := at_ e he
  rw [h2]
  exact fold e.2 h1 _ at_ _ rfl

/-- A loop in a loop. -/
def nested : List Op :=
  [.connect 0 1, .connect 1 2, .connect 2 3, .connect 3 2, .connect 2 4, .connect 4 1, .connect 1 5]

example : ∃ g d, run nested = some g ∧ g.labels.length + 3 ≤ 10 ∧ calculateDom g 10 0 = some d ∧
    compute g d = some ⟨[⟨1, none, [1], [1, 4, 2, 3], [4], [(1, 5)]⟩,
      ⟨2, some 0, [], [2, 3], [3], [(2, 4)]⟩], []⟩ :=
  ⟨_, _, rfl, by decide, rfl, by decide⟩

end Verif.Loops
