import Verif.Dom.Lemmas
/-!
# The queries and analyses built on the dominator tree
-/

namespace Verif.Dom

open Verif.Graph

/-! ## More about dominance -/

variable {E : Nat → Nat → Prop} {entry : Nat}

theorem dom_of_entry {x : Nat} (h : Dominates E entry x entry) : x = entry := by
  simpa using h _ .start

theorem dom_reach {x n : Nat} (hn : Reach E entry n) (h : Dominates E entry x n) :
    Reach E entry x := by
  obtain ⟨l, hl⟩ := walk_of_reach hn
  exact walk_mem_reach hl (h l hl)

theorem walk_len {a b : Nat} {l : List Nat} (h : Walk E a l b) : 0 < l.length :=
  List.length_pos_iff.2 (walk_ne_nil h)

theorem dom_antisymm {x y : Nat} (hy : Reach E entry y) (h : Dominates E entry x y)
    (h' : Dominates E entry y x) : x = y := by
  have key : ∀ (k : Nat) (l : List Nat), l.length ≤ k → Walk E entry l y → x = y := by
    intro k
    induction k with
    | zero =>
      intro l hk hl
      have := walk_len hl
      omega
    | succ k ih =>
      intro l hk hl
      by_cases hxy : x = y
      · exact hxy
      · cases hl with
        | start => exact dom_of_entry h
        | @step l p _ hl he =>
          have hx : x ∈ l := by
            rcases List.mem_append.1 (h _ (.step hl he)) with h | h
            · exact h
            · simp only [List.mem_singleton] at h
              exact absurd h hxy
          obtain ⟨l1, l2, h1, e1⟩ := walk_prefix hl hx
          obtain ⟨l3, l4, h3, e3⟩ := walk_prefix h1 (h' l1 h1)
          refine ih l3 ?_ h3
          have e1' := congrArg List.length e1
          have e3' := congrArg List.length e3
          simp only [List.length_append, List.length_singleton] at e1' e3' hk
          omega
  obtain ⟨l, hl⟩ := walk_of_reach hy
  exact key _ l (Nat.le_refl _) hl

theorem idom_dominates {x p n : Nat} (h : IsIdom E entry p n) :
    Dominates E entry x n ↔ x = n ∨ Dominates E entry x p := by
  constructor
  · intro hx
    by_cases e : x = n
    · exact .inl e
    · exact .inr (h.2 x ⟨hx, e⟩)
  · rintro (rfl | hx)
    · exact dom_self
    · exact dom_trans hx h.1.1

theorem idom_sdom {x p n : Nat} (hn : Reach E entry n) (h : IsIdom E entry p n) :
    SDominates E entry x n ↔ Dominates E entry x p := by
  constructor
  · exact h.2 x
  · intro hx
    refine ⟨dom_trans hx h.1.1, ?_⟩
    rintro rfl
    exact h.1.2 (dom_antisymm hn h.1.1 hx)

theorem idom_unique {p q n : Nat} (hn : Reach E entry n) (h : IsIdom E entry p n)
    (h' : IsIdom E entry q n) : p = q :=
  dom_antisymm (dom_reach hn h'.1.1) (h'.2 p h.1) (h.2 q h'.1)

theorem walk_cons {a b c : Nat} {l : List Nat} (e : E a b) (h : Walk E b l c) :
    Walk E a (a :: l) c := by
  induction h with
  | start => exact Walk.step (l := [a]) .start e
  | step _ e' ih => exact .step ih e'

theorem walk_reach {a b : Nat} {l : List Nat} (h : Walk E a l b) : Reach E a b := reach_of_walk h

/-! ## What the computed tree satisfies -/

/-- `d` is the dominator tree of the graph. -/
structure IsTree (E : Nat → Nat → Prop) (entry : Nat) (d : Dom) : Prop where
  entryEq : d.entry = entry
  nodup : d.postorder.Nodup
  mem : ∀ x, x ∈ d.postorder ↔ Reach E entry x
  noIdom : ∀ n, ¬ Reach E entry n ∨ n = entry → d.idomOf n = none
  idom : ∀ n, Reach E entry n → n ≠ entry → ∃ p, d.idomOf n = some p ∧ IsIdom E entry p n ∧
    d.postorder.idxOf n < d.postorder.idxOf p
  keys : (d.idomBy.map (·.1)).Nodup

theorem lookup_filter_ne {m : List (Nat × Nat)} {a c : Nat} :
    (m.filter (fun e => e.1 != a)).lookup c = if c = a then Option.none else m.lookup c := by
  induction m with
  | nil => simp
  | cons x m ih =>
    obtain ⟨y, w⟩ := x
    by_cases hy : y = a
    · subst hy
      simp only [List.filter_cons, bne_self_eq_false, Bool.false_eq_true, if_false, ih,
        List.lookup_cons]
      by_cases hc : c = y
      · simp [hc]
      · have : (c == y) = false := by simpa using hc
        simp [hc, this]
    · have hb' : (y != a) = true := by simpa using hy
      simp only [List.filter_cons, hb', if_true, List.lookup_cons]
      by_cases hc : c = y
      · subst hc; simp [hy]
      · have : (c == y) = false := by simpa using hc
        simp only [this, ih]

/-- Keys stay distinct. -/
theorem processBlock_keys {preds : Nat → List Nat} {po : List Nat} {s s' : List (Nat × Nat) × Bool}
    {b : Nat} (h : processBlock preds po s b = some s') (hn : (s.1.map (·.1)).Nodup) :
    (s'.1.map (·.1)).Nodup := by
  simp only [processBlock] at h
  split at h
  · obtain rfl := Option.some.inj h; exact hn
  · simp only [Option.bind_eq_bind, Option.bind_eq_some_iff] at h
    obtain ⟨n, -, h⟩ := h
    split at h
    · obtain rfl := Option.some.inj h
      simp only [insertKV, List.map_cons, List.nodup_cons]
      constructor
      · simp
      · have : (s.1.filter (fun e => e.1 != b)).map (·.1) = (s.1.map (·.1)).filter (fun x => x != b) := by
          rw [List.filter_map]; rfl
        rw [this]
        exact List.Pairwise.filter _ hn
    · obtain rfl := Option.some.inj h; exact hn

theorem foldlM_keys {preds : Nat → List Nat} {po : List Nat} : ∀ (bs : List Nat)
    {s s' : List (Nat × Nat) × Bool}, bs.foldlM (processBlock preds po) s = some s' →
    (s.1.map (·.1)).Nodup → (s'.1.map (·.1)).Nodup
  | [], s, s', h, hn => by obtain rfl := Option.some.inj h; exact hn
  | b :: bs, s, s', h, hn => by
    simp only [List.foldlM_cons, Option.bind_eq_bind, Option.bind_eq_some_iff] at h
    obtain ⟨s1, h1, h2⟩ := h
    exact foldlM_keys bs h2 (processBlock_keys h1 hn)

theorem passes_keys {preds : Nat → List Nat} {po : List Nat} {e : Nat} : ∀ {fuel : Nat}
    {m m' : List (Nat × Nat)}, passes preds po e fuel m = some m' → (m.map (·.1)).Nodup →
    (m'.map (·.1)).Nodup
  | 0, _, _, h, _ => by simp [passes] at h
  | fuel + 1, m, m', h, hn => by
    simp only [passes] at h
    split at h
    · simp at h
    · rename_i m1 hp
      exact passes_keys h (foldlM_keys _ hp hn)
    · rename_i m1 hp
      obtain rfl := Option.some.inj h
      exact foldlM_keys _ hp hn

theorem later_split {nbrs : Nat → List Nat} {entry : Nat} : ∀ (l₁ : List Nat) {l₂ : List Nat} {x : Nat},
    Later nbrs (fun x => x = entry) (l₁ ++ x :: l₂) → x = entry ∨ ∃ p ∈ l₂, x ∈ nbrs p
  | [], _, _, h => h.1
  | _ :: l₁, _, _, h => later_split l₁ h.2

/-- `Dom::calculate`, in either direction. -/
theorem calculate_tree {nbrs preds : Nat → List Nat} {U : List Nat}
    (hU : ∀ x ∈ U, ∀ c ∈ nbrs x, c ∈ U) (hp : ∀ a b, a ∈ preds b ↔ b ∈ nbrs a) {entry fuel : Nat}
    (he : entry ∈ U) (hf : U.length + 2 ≤ fuel) :
    ∃ d, calculate nbrs preds fuel entry = some d ∧ IsTree (fun a b => b ∈ nbrs a) entry d := by
  obtain ⟨po, e1, hpo⟩ := postorder_spec hU he (fuel := fuel) (by omega)
  have hpoU : po.length ≤ U.length := by
    refine hpo.nodup.length_le_of_subset ?_
    intro x hx
    exact Reach.closed (S := fun x => x ∈ U) (fun a b ha hb => hU a ha b hb) he ((hpo.mem x).1 hx)
  let k : Ctx := ⟨fun a b => b ∈ nbrs a, preds, entry, po⟩
  have ok : k.OK := by
    refine ⟨hpo.nodup, hpo.mem, ?_, ?_, hp⟩
    · intro x hx hxe
      obtain ⟨l, hl⟩ := hpo.last
      have hx' : x ∈ l := by
        have : x ∈ l ++ [entry] := by rw [← hl]; exact hx
        rcases List.mem_append.1 this with h | h
        · exact h
        · simp only [List.mem_singleton] at h
          exact absurd h hxe
      obtain ⟨l1, l2, e⟩ := List.append_of_mem hx'
      refine idxOf_lt_of_split (l1 := l1) (l2 := l2 ++ [entry]) hpo.nodup ?_ (by simp [k])
      simp only [k]
      rw [hl, e]
      simp
    · intro l1 x l2 h
      have := hpo.later
      simp only [k] at h
      rw [h] at this
      exact later_split l1 this
  obtain ⟨m, e2, inv, all, ex⟩ := ok.calculate_spec (fuel := fuel) (by simp only [k]; omega)
  simp only [k] at e2 inv all ex
  refine ⟨⟨po, m.filter (fun e => e.1 != entry), entry⟩, ?_, rfl, hpo.nodup, hpo.mem, ?_, ?_, ?_⟩
  · simp only [calculate, e1, e2, Option.bind_eq_bind, Option.bind_some]
  · intro n hn
    simp only [Dom.idomOf, lookup_filter_ne]
    split
    · rfl
    · rename_i hne
      rcases hn with hn | hn
      · cases hl : m.lookup n with
        | none => rfl
        | some t => exact absurd ((hpo.mem n).1 (inv.mem n t hl)) hn
      · exact absurd hn hne
  · intro n hr hne
    have hnm := (hpo.mem n).2 hr
    obtain ⟨t, ht⟩ := Option.isSome_iff_exists.1 (all n hnm)
    have hasc := inv.asc n t hne ht
    have htm : t ∈ po := inv.anc_mem hasc.1
    refine ⟨t, by simp only [Dom.idomOf, lookup_filter_ne, hne, if_false]; exact ht, ⟨⟨?_, ?_⟩, ?_⟩,
      hasc.2⟩
    · exact (ex n hnm t).1 (.up hne ht .self)
    · rintro rfl
      exact Nat.lt_irrefl _ hasc.2
    · rintro x ⟨hx, hxn⟩
      cases (ex n hnm x).2 hx with
      | self => exact absurd rfl hxn
      | up _ h2 h3 =>
        obtain rfl := Option.some.inj (ht.symm.trans h2)
        exact (ex t htm x).1 h3
  · have : (m.filter (fun e => e.1 != entry)).map (·.1) =
        (m.map (·.1)).filter (fun x => x != entry) := by
      rw [List.filter_map]; rfl
    rw [this]
    exact List.Pairwise.filter _ (passes_keys e2 (by simp))

/-! ## Chains -/

theorem IsTree.chain_spec {d : Dom} (t : IsTree E entry d) : ∀ {fuel n : Nat}, Reach E entry n →
    d.postorder.length ≤ fuel + d.postorder.idxOf n →
    ∃ l, d.chain fuel n = some l ∧ ∀ x, x ∈ l ↔ Dominates E entry x n
  | 0, n, hr, hf => by
    have := List.idxOf_lt_length_of_mem ((t.mem n).2 hr)
    omega
  | fuel + 1, n, hr, hf => by
    simp only [Dom.chain, t.entryEq]
    by_cases hn : n = entry
    · subst hn
      refine ⟨[n], by simp, ?_⟩
      intro x
      simp only [List.mem_singleton]
      exact ⟨fun h => h ▸ dom_self, dom_of_entry⟩
    · obtain ⟨p, e, hi, hlt⟩ := t.idom n hr hn
      obtain ⟨l, hl, hm⟩ := t.chain_spec (fuel := fuel) (dom_reach hr hi.1.1) (by omega)
      have hb : (n == entry) = false := by simpa using hn
      refine ⟨n :: l, by simp [hb, e, hl], ?_⟩
      intro x
      rw [List.mem_cons, hm, idom_dominates hi]

theorem IsTree.chain_none {d : Dom} (t : IsTree E entry d) {fuel n : Nat} (hr : ¬ Reach E entry n) :
    d.chain fuel n = none := by
  cases fuel with
  | zero => rfl
  | succ fuel =>
    have hb : (n == entry) = false := by
      simp only [beq_eq_false_iff_ne, ne_eq]
      rintro rfl
      exact hr .refl
    simp [Dom.chain, t.entryEq, hb, t.noIdom n (.inl hr)]

theorem mapM_graph {β : Type} {f : Nat → Option β} : ∀ (ks : List Nat),
    (∀ k ∈ ks, ∃ l, f k = some l) →
    ∃ r, ks.mapM (fun k => do
        let e ← f k
        some (k, e)) = some r ∧
      (∀ a, r.lookup a = if a ∈ ks then f a else none) ∧
      (∀ k l, (k, l) ∈ r ↔ k ∈ ks ∧ f k = some l)
  | [], _ => ⟨[], rfl, by simp, by simp⟩
  | k :: ks, h => by
    obtain ⟨r, e, h1, h2⟩ := mapM_graph ks (fun k hk => h k (List.mem_cons_of_mem _ hk))
    obtain ⟨l, hl⟩ := h k (by simp)
    refine ⟨(k, l) :: r, ?_, ?_, ?_⟩
    · rw [List.mapM_cons, e, hl]
      rfl
    · intro a
      simp only [List.lookup_cons, h1]
      by_cases ha : a = k
      · subst ha; simp [hl]
      · have : (a == k) = false := by simpa using ha
        simp [this, ha]
    · intro a b
      simp only [List.mem_cons, Prod.mk.injEq, h2]
      constructor
      · rintro (⟨rfl, rfl⟩ | ⟨h, h'⟩)
        · exact ⟨.inl rfl, hl⟩
        · exact ⟨.inr h, h'⟩
      · rintro ⟨rfl | h, h'⟩
        · rw [hl] at h'
          exact .inl ⟨rfl, (Option.some.inj h').symm⟩
        · exact .inr ⟨h, h'⟩

theorem mem_keys_iff {β : Type} {m : List (Nat × β)} {a : Nat} :
    a ∈ m.map (·.1) ↔ (m.lookup a).isSome := by
  induction m with
  | nil => simp
  | cons x m ih =>
    obtain ⟨y, w⟩ := x
    simp only [List.map_cons, List.mem_cons, List.lookup_cons, ih]
    by_cases h : a = y
    · simp [h]
    · have : (a == y) = false := by simpa using h
      simp [h, this]

theorem IsTree.key_iff {d : Dom} (t : IsTree E entry d) {a : Nat} :
    a ∈ d.idomBy.map (·.1) ↔ Reach E entry a ∧ a ≠ entry := by
  rw [mem_keys_iff]
  constructor
  · intro h
    refine Classical.byContradiction fun hn => ?_
    have : ¬ Reach E entry a ∨ a = entry := by
      by_cases hr : Reach E entry a
      · exact .inr (Classical.byContradiction fun h' => hn ⟨hr, h'⟩)
      · exact .inl hr
    have := t.noIdom a this
    simp only [Dom.idomOf] at this
    rw [this] at h
    simp at h
  · rintro ⟨hr, hne⟩
    obtain ⟨p, e, -⟩ := t.idom a hr hne
    simp only [Dom.idomOf] at e
    rw [e]; rfl

theorem IsTree.bys_spec {d : Dom} (t : IsTree E entry d) :
    ∃ m, d.dominatedByGraph = some m ∧
      (∀ a, (∃ l, m.lookup a = some l ∧ Reach E entry a ∧ ∀ x, x ∈ l ↔ Dominates E entry x a) ∨
        (m.lookup a = none ∧ ¬ Reach E entry a)) ∧
      (∀ k l, (k, l) ∈ m → Reach E entry k ∧ ∀ x, x ∈ l ↔ Dominates E entry x k) ∧
      (∀ k, Reach E entry k → ∃ l, (k, l) ∈ m) := by
  have hch : ∀ n, Reach E entry n → ∃ l, d.chain (d.postorder.length + 1) n = some l ∧
      ∀ x, x ∈ l ↔ Dominates E entry x n := fun n hn => t.chain_spec hn (by omega)
  obtain ⟨r, e, h1, h2⟩ := mapM_graph (f := d.chain (d.postorder.length + 1))
    (d.idomBy.map (·.1)) (fun k hk => by
      obtain ⟨l, hl, -⟩ := hch k (t.key_iff.1 hk).1
      exact ⟨l, hl⟩)
  have hen : ∀ x, x ∈ [d.entry] ↔ Dominates E entry x entry := by
    intro x
    rw [t.entryEq]
    simp only [List.mem_singleton]
    exact ⟨fun h => h ▸ dom_self, dom_of_entry⟩
  refine ⟨(d.entry, [d.entry]) :: r, ?_, ?_, ?_, ?_⟩
  · unfold Dom.dominatedByGraph
    rw [e]
    rfl
  · intro a
    by_cases ha : a = entry
    · refine .inl ⟨[d.entry], ?_, ?_, ?_⟩
      · simp [List.lookup_cons, t.entryEq, ha]
      · rw [ha]; exact .refl
      · rw [ha]; exact hen
    · have hb : (a == d.entry) = false := by rw [t.entryEq]; simpa using ha
      simp only [List.lookup_cons, hb, h1]
      by_cases hr : Reach E entry a
      · obtain ⟨l, hl, hm⟩ := hch a hr
        refine .inl ⟨l, ?_, hr, hm⟩
        rw [if_pos (t.key_iff.2 ⟨hr, ha⟩), hl]
      · refine .inr ⟨if_neg fun h => hr (t.key_iff.1 h).1, hr⟩
  · intro k l h
    rcases List.mem_cons.1 h with h | h
    · cases h
      rw [t.entryEq]
      exact ⟨.refl, by have := hen; rwa [t.entryEq] at this⟩
    · obtain ⟨hk, hl⟩ := (h2 k l).1 h
      obtain ⟨l', hl', hm⟩ := hch k (t.key_iff.1 hk).1
      rw [hl] at hl'
      obtain rfl := Option.some.inj hl'
      exact ⟨(t.key_iff.1 hk).1, hm⟩
  · intro k hr
    by_cases hk : k = entry
    · exact ⟨[d.entry], by rw [hk, t.entryEq]; simp⟩
    · obtain ⟨l, hl, -⟩ := hch k hr
      exact ⟨l, List.mem_cons_of_mem _ ((h2 k l).2 ⟨t.key_iff.2 ⟨hr, hk⟩, hl⟩)⟩

/-! ## Maps to sets -/

theorem lookup_filter_ne' {β : Type} {m : List (Nat × β)} {a c : Nat} (h : c ≠ a) :
    (m.filter (fun e => e.1 != a)).lookup c = m.lookup c := by
  induction m with
  | nil => simp
  | cons x m ih =>
    obtain ⟨y, w⟩ := x
    by_cases hy : y = a
    · subst hy
      have : (c == y) = false := by simpa using h
      simp only [List.filter_cons, bne_self_eq_false, Bool.false_eq_true, if_false, ih,
        List.lookup_cons, this]
    · have hb' : (y != a) = true := by simpa using hy
      simp only [List.filter_cons, hb', if_true, List.lookup_cons]
      cases c == y
      · exact ih
      · rfl

theorem dominates_insertInto {m : List (Nat × List Nat)} {k x a b : Nat} :
    dominates (insertInto m k x) a b = true ↔ (a = k ∧ b = x) ∨ dominates m a b = true := by
  by_cases ha : a = k
  · subst ha
    simp only [insertInto]
    cases h : m.lookup a with
    | none => simp [dominates, h]
    | some s =>
      simp only [dominates, List.lookup_cons, beq_self_eq_true, h, List.contains_iff_mem, true_and,
        mem_setInsert]
      exact Or.comm
  · have hb : (a == k) = false := by simpa using ha
    simp only [insertInto]
    cases h : m.lookup k with
    | none => simp [dominates, List.lookup_cons, hb, ha]
    | some s => simp [dominates, List.lookup_cons, hb, ha, lookup_filter_ne' ha]

theorem dominates_fold1 {k : Nat} : ∀ (ps : List Nat) {m : List (Nat × List Nat)} {a b : Nat},
    dominates (ps.foldl (fun doms parent => insertInto doms parent k) m) a b = true ↔
      (b = k ∧ a ∈ ps) ∨ dominates m a b = true
  | [], m, a, b => by simp
  | p :: ps, m, a, b => by
    rw [List.foldl_cons, dominates_fold1 ps, dominates_insertInto]
    simp only [List.mem_cons]
    constructor
    · rintro (⟨h, h'⟩ | ⟨h, h'⟩ | h)
      · exact .inl ⟨h, .inr h'⟩
      · exact .inl ⟨h', .inl h⟩
      · exact .inr h
    · rintro (⟨h, h' | h'⟩ | h)
      · exact .inr (.inl ⟨h', h⟩)
      · exact .inl ⟨h, h'⟩
      · exact .inr (.inr h)

theorem dominates_fold2 : ∀ (es : List (Nat × List Nat)) {m : List (Nat × List Nat)} {a b : Nat},
    dominates (es.foldl (fun doms e =>
        e.2.foldl (fun doms parent => insertInto doms parent e.1) doms) m) a b = true ↔
      (∃ l, (b, l) ∈ es ∧ a ∈ l) ∨ dominates m a b = true
  | [], m, a, b => by simp
  | e :: es, m, a, b => by
    rw [List.foldl_cons, dominates_fold2 es, dominates_fold1]
    obtain ⟨k, l0⟩ := e
    simp only [List.mem_cons, Prod.mk.injEq]
    constructor
    · rintro (⟨l, h, h'⟩ | ⟨h, h'⟩ | h)
      · exact .inl ⟨l, .inr h, h'⟩
      · exact .inl ⟨l0, .inl ⟨h, rfl⟩, h'⟩
      · exact .inr h
    · rintro (⟨l, ⟨h, rfl⟩ | h, h'⟩ | h)
      · exact .inr (.inl ⟨h, h'⟩)
      · exact .inl ⟨l, h, h'⟩
      · exact .inr (.inr h)

theorem IsTree.doms_spec {d : Dom} (t : IsTree E entry d) :
    ∃ m, d.dominatesGraph = some m ∧
      ∀ a b, dominates m a b = true ↔ Reach E entry b ∧ Dominates E entry a b := by
  obtain ⟨bys, e, -, h2, h3⟩ := t.bys_spec
  refine ⟨_, by simp only [Dom.dominatesGraph, e, Option.bind_eq_bind, Option.bind_some]; rfl, ?_⟩
  intro a b
  rw [dominates_fold2]
  constructor
  · rintro (⟨l, h, h'⟩ | h)
    · exact ⟨(h2 b l h).1, ((h2 b l h).2 a).1 h'⟩
    · simp [dominates] at h
  · rintro ⟨hr, hd⟩
    obtain ⟨l, hl⟩ := h3 b hr
    exact .inl ⟨l, hl, ((h2 b l hl).2 a).2 hd⟩

/-! ## Nearest common dominators -/

theorem IsTree.firstIn_spec {d : Dom} (t : IsTree E entry d) {a : Nat} {anc : List Nat}
    (ha : ∀ x, x ∈ anc ↔ Dominates E entry x a) : ∀ {fuel n : Nat}, Reach E entry n →
    d.postorder.length ≤ fuel + d.postorder.idxOf n →
    ∃ c, d.firstIn anc fuel n = some c ∧ Dominates E entry c a ∧ Dominates E entry c n ∧
      ∀ x, Dominates E entry x a → Dominates E entry x n → Dominates E entry x c
  | 0, n, hr, hf => by
    have := List.idxOf_lt_length_of_mem ((t.mem n).2 hr)
    omega
  | fuel + 1, n, hr, hf => by
    simp only [Dom.firstIn, t.entryEq]
    by_cases hin : n ∈ anc
    · exact ⟨n, by simp [hin], (ha n).1 hin, dom_self, fun x _ h => h⟩
    · have hn : n ≠ entry := by
        rintro rfl
        exact hin ((ha n).2 dom_entry)
      obtain ⟨p, e, hi, hlt⟩ := t.idom n hr hn
      obtain ⟨c, hc, h1, h2, h3⟩ := t.firstIn_spec ha (fuel := fuel) (dom_reach hr hi.1.1) (by omega)
      have hb : (n == entry) = false := by simpa using hn
      refine ⟨c, by simp [hin, hb, e, hc], h1, dom_trans h2 hi.1.1, ?_⟩
      intro x hx1 hx2
      rcases (idom_dominates hi).1 hx2 with rfl | h
      · exact absurd ((ha x).2 hx1) hin
      · exact h3 x hx1 h

theorem IsTree.lca_spec {d : Dom} (t : IsTree E entry d) {a b : Nat} (ha : Reach E entry a)
    (hb : Reach E entry b) :
    ∃ c, d.lca a b = some c ∧ Dominates E entry c a ∧ Dominates E entry c b ∧
      ∀ x, Dominates E entry x a → Dominates E entry x b → Dominates E entry x c := by
  simp only [Dom.lca]
  by_cases hab : a = b
  · subst hab
    exact ⟨a, by simp, dom_self, dom_self, fun x h _ => h⟩
  · have hbe : (a == b) = false := by simpa using hab
    obtain ⟨anc, e, hm⟩ := t.chain_spec (fuel := d.postorder.length + 1) ha (by omega)
    obtain ⟨c, hc, h⟩ := t.firstIn_spec hm (fuel := d.postorder.length + 1) hb (by omega)
    exact ⟨c, by simp [hbe, e, hc], h⟩

theorem IsTree.lca_none {d : Dom} (t : IsTree E entry d) {a b : Nat} (hab : a ≠ b)
    (h : ¬ Reach E entry a ∨ ¬ Reach E entry b) : d.lca a b = none := by
  have hbe : (a == b) = false := by simpa using hab
  simp only [Dom.lca, hbe, Bool.false_eq_true, if_false]
  by_cases ha : Reach E entry a
  · have hb : ¬ Reach E entry b := h.resolve_left (fun h => h ha)
    obtain ⟨anc, e, hm⟩ := t.chain_spec (fuel := d.postorder.length + 1) ha (by omega)
    have hb' : (b == entry) = false := by
      simp only [beq_eq_false_iff_ne, ne_eq]
      rintro rfl
      exact hb .refl
    have hin : b ∉ anc := fun h => hb (dom_reach ha ((hm b).1 h))
    simp [e, Dom.firstIn, hin, t.entryEq, hb', t.noIdom b (.inl hb)]
  · simp [t.chain_none ha]

/-! ## Dominance frontiers -/

theorem IsTree.runner_spec {d : Dom} (t : IsTree E entry d) {b stop : Nat} : ∀ {fuel r : Nat}
    {df : List (Nat × List Nat)}, Reach E entry r → Dominates E entry stop r →
    d.postorder.length ≤ fuel + d.postorder.idxOf r →
    ∃ df', d.runner b stop fuel r df = some df' ∧
      ∀ x y, dominates df' x y = true ↔
        dominates df x y = true ∨ (y = b ∧ Dominates E entry x r ∧ ¬ Dominates E entry x stop)
  | 0, r, df, hr, _, hf => by
    have := List.idxOf_lt_length_of_mem ((t.mem r).2 hr)
    omega
  | fuel + 1, r, df, hr, hs, hf => by
    simp only [Dom.runner]
    by_cases hrs : r = stop
    · subst hrs
      refine ⟨df, by simp, ?_⟩
      intro x y
      constructor
      · exact .inl
      · rintro (h | ⟨-, h, h'⟩)
        · exact h
        · exact absurd h h'
    · have hre : r ≠ entry := by
        rintro rfl
        exact hrs (dom_of_entry hs).symm
      obtain ⟨p, e, hi, hlt⟩ := t.idom r hr hre
      have hsp : Dominates E entry stop p := hi.2 stop ⟨hs, Ne.symm hrs⟩
      obtain ⟨df', hd, hm⟩ := t.runner_spec (b := b) (stop := stop) (fuel := fuel) (r := p)
        (df := insertInto df r b) (dom_reach hr hi.1.1) hsp (by omega)
      have hb : (r == stop) = false := by simpa using hrs
      refine ⟨df', by simp [hb, e, hd], ?_⟩
      intro x y
      rw [hm, dominates_insertInto, idom_dominates hi]
      have hnr : ¬ Dominates E entry r stop := fun h =>
        hrs (dom_antisymm (dom_reach hr hs) h hs)
      constructor
      · rintro ((⟨rfl, h⟩ | h) | ⟨h, h', h''⟩)
        · exact .inr ⟨h, .inl rfl, hnr⟩
        · exact .inl h
        · exact .inr ⟨h, .inr h', h''⟩
      · rintro (h | ⟨h, rfl | h', h''⟩)
        · exact .inl (.inr h)
        · exact .inl (.inl ⟨rfl, h⟩)
        · exact .inr ⟨h, h', h''⟩

theorem IsTree.runners_spec {d : Dom} (t : IsTree E entry d) {b stop : Nat} : ∀ (ps : List Nat)
    {df : List (Nat × List Nat)}, (∀ p ∈ ps, Reach E entry p ∧ Dominates E entry stop p) →
    ∃ df', ps.foldlM (fun df p => d.runner b stop (d.postorder.length + 1) p df) df = some df' ∧
      ∀ x y, dominates df' x y = true ↔ dominates df x y = true ∨
        (y = b ∧ (∃ p ∈ ps, Dominates E entry x p) ∧ ¬ Dominates E entry x stop)
  | [], df, _ => ⟨df, rfl, by simp⟩
  | p :: ps, df, h => by
    obtain ⟨hr, hs⟩ := h p (by simp)
    obtain ⟨d1, e1, h1⟩ := t.runner_spec (b := b) (fuel := d.postorder.length + 1) (df := df) hr hs
      (by omega)
    obtain ⟨d2, e2, h2⟩ := t.runners_spec (b := b) ps (df := d1)
      (fun q hq => h q (List.mem_cons_of_mem _ hq))
    refine ⟨d2, by simp [e1, e2], ?_⟩
    intro x y
    rw [h2, h1]
    constructor
    · rintro ((h | ⟨h, h', h''⟩) | ⟨h, ⟨q, hq, h'⟩, h''⟩)
      · exact .inl h
      · exact .inr ⟨h, ⟨p, by simp, h'⟩, h''⟩
      · exact .inr ⟨h, ⟨q, List.mem_cons_of_mem _ hq, h'⟩, h''⟩
    · rintro (h1 | ⟨hy, ⟨q, hq, h'⟩, h''⟩)
      · exact .inl (.inl h1)
      · rcases List.mem_cons.1 hq with rfl | hq
        · exact .inl (.inr ⟨hy, h', h''⟩)
        · exact .inr ⟨hy, ⟨q, hq, h'⟩, h''⟩

theorem IsTree.frontiers_aux {g : Graph} {d : Dom} (w : WF g) (t : IsTree g.Edge entry d)
    (hp : ∀ p b, g.Edge p b → Reach g.Edge entry b → Reach g.Edge entry p) : ∀ (bs : List Nat)
    {df : List (Nat × List Nat)}, (∀ b ∈ bs, Reach g.Edge entry b) →
    ∃ df', bs.foldlM (fun df b =>
      match d.idomOf b with
      | none => some df
      | some stop =>
        let parents := g.parentsSorted b
        if parents.length < 2 then some df
        else parents.foldlM (fun df p => d.runner b stop (d.postorder.length + 1) p df) df) df
        = some df' ∧
      ∀ x y, dominates df' x y = true ↔ dominates df x y = true ∨
        (y ∈ bs ∧ y ≠ entry ∧ InFrontier g.Edge entry x y)
  | [], df, _ => ⟨df, rfl, by simp⟩
  | b :: bs, df, h => by
    have hr := h b (by simp)
    have hpar : ∀ p, p ∈ g.parentsSorted b ↔ g.Edge p b := by
      intro p
      simp only [Graph.parentsSorted, mem_sortLabels]
      exact (w.sym p b).symm
    have one : ∃ df1, (match d.idomOf b with
        | none => some df
        | some stop =>
          let parents := g.parentsSorted b
          if parents.length < 2 then some df
          else parents.foldlM (fun df p => d.runner b stop (d.postorder.length + 1) p df) df)
          = some df1 ∧
        ∀ x y, dominates df1 x y = true ↔ dominates df x y = true ∨
          (y = b ∧ y ≠ entry ∧ InFrontier g.Edge entry x y) := by
      by_cases hbe : b = entry
      · refine ⟨df, by rw [t.noIdom b (.inr hbe)], ?_⟩
        intro x y
        constructor
        · exact .inl
        · rintro (h | ⟨rfl, h, -⟩)
          · exact h
          · exact absurd hbe h
      · obtain ⟨stop, e, hi, -⟩ := t.idom b hr hbe
        have hfr : ∀ x, InFrontier g.Edge entry x b ↔
            (∃ p ∈ g.parentsSorted b, Dominates g.Edge entry x p) ∧
              ¬ Dominates g.Edge entry x stop := by
          intro x
          simp only [InFrontier, idom_sdom hr hi]
          constructor
          · rintro ⟨⟨p, h1, h2⟩, h3⟩
            exact ⟨⟨p, (hpar p).2 h1, h2⟩, h3⟩
          · rintro ⟨⟨p, h1, h2⟩, h3⟩
            exact ⟨⟨p, (hpar p).1 h1, h2⟩, h3⟩
        rw [e]
        dsimp only
        by_cases hlen : (g.parentsSorted b).length < 2
        · refine ⟨df, by simp [hlen], ?_⟩
          intro x y
          constructor
          · exact .inl
          · rintro (h | ⟨rfl, -, h⟩)
            · exact h
            · exfalso
              obtain ⟨⟨p, hpm, hx⟩, hns⟩ := (hfr x).1 h
              refine hns (dom_trans hx ?_)
              have hps : SDominates g.Edge entry p y := by
                have hall : ∀ q, q ∈ g.parentsSorted y → q = p := by
                  intro q hq
                  match hL : g.parentsSorted y, hlen, hpm, hq with
                  | [z], _, hpm, hq =>
                    simp only [List.mem_singleton] at hpm hq
                    rw [hpm, hq]
                  | [], _, hpm, _ => simp at hpm
                have hd : Dominates g.Edge entry p y := by
                  refine dom_of_preds hbe (fun q _ hq => ?_)
                  rw [hall q ((hpar q).2 hq)]
                  exact dom_self
                refine ⟨hd, ?_⟩
                rintro rfl
                obtain ⟨l, hl⟩ := walk_of_reach hr
                have : ∀ (k : Nat) (l : List Nat), l.length ≤ k → Walk g.Edge entry l p → False := by
                  intro k
                  induction k with
                  | zero =>
                    intro l hk hl
                    have := walk_len hl
                    omega
                  | succ k ih =>
                    intro l hk hl
                    cases hl with
                    | start => exact hbe rfl
                    | @step l' q _ hl' he =>
                      have := hall q ((hpar q).2 he)
                      simp only [List.length_append, List.length_singleton] at hk
                      exact ih l' (by omega) (this ▸ hl')
                exact this _ l (Nat.le_refl _) hl
              exact hi.2 p hps
        · obtain ⟨df1, e1, h1⟩ := t.runners_spec (b := b) (stop := stop) (g.parentsSorted b)
            (df := df) (fun p hpm => ⟨hp p b ((hpar p).1 hpm) hr,
              dom_pred hi.1.1 hi.1.2 ((hpar p).1 hpm)⟩)
          refine ⟨df1, by simp only [hlen, if_false]; exact e1, ?_⟩
          intro x y
          rw [h1]
          constructor
          · rintro (h | ⟨rfl, h, h'⟩)
            · exact .inl h
            · exact .inr ⟨rfl, hbe, (hfr x).2 ⟨h, h'⟩⟩
          · rintro (h | ⟨rfl, -, h⟩)
            · exact .inl h
            · exact .inr ⟨rfl, (hfr x).1 h⟩
    obtain ⟨df1, e1, h1⟩ := one
    obtain ⟨df2, e2, h2⟩ := t.frontiers_aux w hp bs (df := df1)
      (fun q hq => h q (List.mem_cons_of_mem _ hq))
    refine ⟨df2, ?_, ?_⟩
    · rw [List.foldlM_cons, e1]
      exact e2
    · intro x y
      rw [h2, h1]
      simp only [List.mem_cons]
      constructor
      · rintro ((h | ⟨h, h'⟩) | ⟨h, h'⟩)
        · exact .inl h
        · exact .inr ⟨.inl h, h'⟩
        · exact .inr ⟨.inr h, h'⟩
      · rintro (h | ⟨h | h, h'⟩)
        · exact .inl (.inl h)
        · exact .inl (.inr ⟨h, h'⟩)
        · exact .inr ⟨h, h'⟩

/-! ## Natural loops -/

/-- The members so far are right: nothing wrong is in, and everything is dominated by the header. -/
structure LoopOK (g : Graph) (entry h : Nat) (l : List Nat) : Prop where
  nodup : l.Nodup
  label : ∀ n ∈ l, n ∈ g.labels
  sound : ∀ n ∈ l, InNaturalLoop g.Edge entry h n
  reach : ∀ n ∈ l, Reach g.Edge entry n ∧ Dominates g.Edge entry h n

/-- All predecessors of `n` inside the region dominated by the header are in `l`. -/
def Done (g : Graph) (entry h n : Nat) (l : List Nat) : Prop :=
  ∀ p, g.Edge p n → Reach g.Edge entry p → Dominates g.Edge entry h p → p ∈ l

theorem natural_pred {g : Graph} {h n p : Nat} (hn : InNaturalLoop g.Edge entry h n)
    (he : g.Edge p n) (hr : Reach g.Edge entry p) (hd : Dominates g.Edge entry h p) :
    InNaturalLoop g.Edge entry h p := by
  by_cases hph : p = h
  · obtain ⟨t, ht, he', hd', -⟩ := hn
    exact ⟨t, ht, he', hd', .inl hph⟩
  · by_cases hnh : n = h
    · subst hnh
      exact ⟨p, hr, he, hd, .inr ⟨hr, [p], .start, by simpa using Ne.symm hph⟩⟩
    · obtain ⟨t, ht, he', hd', h1 | ⟨-, l, hl, hhl⟩⟩ := hn
      · exact absurd h1 hnh
      · refine ⟨t, ht, he', hd', .inr ⟨hr, p :: l, walk_cons he hl, ?_⟩⟩
        simp only [List.mem_cons, not_or]
        exact ⟨Ne.symm hph, hhl⟩

theorem loopParents_spec {g : Graph} {doms : List (Nat × List Nat)} {h n : Nat}
    (hdoms : ∀ a b, dominates doms a b = true ↔ Reach g.Edge entry b ∧ Dominates g.Edge entry a b)
    (hnat : InNaturalLoop g.Edge entry h n) : ∀ (ps : List Nat) {l queue : List Nat},
    (∀ p ∈ ps, g.Edge p n) → LoopOK g entry h l →
    ∃ new, loopParents doms h ps (l, queue) = (l ++ new, queue ++ new) ∧
      LoopOK g entry h (l ++ new) ∧
      ∀ p ∈ ps, Reach g.Edge entry p → Dominates g.Edge entry h p → p ∈ l ++ new
  | [], l, queue, _, hl => ⟨[], by simp [loopParents], by simpa using hl, by simp⟩
  | p :: ps, l, queue, hps, hl => by
    have he := hps p (by simp)
    have hps' : ∀ q ∈ ps, g.Edge q n := fun q hq => hps q (List.mem_cons_of_mem _ hq)
    simp only [loopParents]
    by_cases hd : dominates doms h p = true
    · obtain ⟨hr, hdm⟩ := (hdoms h p).1 hd
      by_cases hp : p ∈ l
      · obtain ⟨new, e, h1, h2⟩ := loopParents_spec hdoms hnat ps (queue := queue) hps' hl
        refine ⟨new, by simp [hd, hp, e], h1, ?_⟩
        intro q hq hqr hqd
        rcases List.mem_cons.1 hq with rfl | hq
        · exact List.mem_append_left _ hp
        · exact h2 q hq hqr hqd
      · have hl' : LoopOK g entry h (l ++ [p]) := by
          refine ⟨nodup_snoc hl.nodup hp, ?_, ?_, ?_⟩ <;>
          · intro q hq
            rcases List.mem_append.1 hq with hq | hq
            · first
              | exact hl.label q hq
              | exact hl.sound q hq
              | exact hl.reach q hq
            · simp only [List.mem_singleton] at hq
              subst hq
              first
              | exact mem_labels_of_child he
              | exact natural_pred hnat he hr hdm
              | exact ⟨hr, hdm⟩
        obtain ⟨new, e, h1, h2⟩ := loopParents_spec hdoms hnat ps (l := l ++ [p])
          (queue := queue ++ [p]) hps' hl'
        refine ⟨p :: new, by simp [hd, hp, e], by simpa using h1, ?_⟩
        intro q hq hqr hqd
        rcases List.mem_cons.1 hq with rfl | hq
        · simp
        · simpa using h2 q hq hqr hqd
    · obtain ⟨new, e, h1, h2⟩ := loopParents_spec hdoms hnat ps (queue := queue) hps' hl
      refine ⟨new, by simp [hd, e], h1, ?_⟩
      intro q hq hqr hqd
      rcases List.mem_cons.1 hq with rfl | hq
      · exact absurd ((hdoms h q).2 ⟨hqr, hqd⟩) hd
      · exact h2 q hq hqr hqd

theorem loopBody_spec {g : Graph} (w : WF g) {doms : List (Nat × List Nat)} {h : Nat}
    (hdoms : ∀ a b, dominates doms a b = true ↔ Reach g.Edge entry b ∧ Dominates g.Edge entry a b) :
    ∀ {fuel : Nat} {l queue : List Nat}, LoopOK g entry h l → (∀ n ∈ queue, n ∈ l) →
    (∀ n ∈ l, n ∉ queue → n ≠ h → Done g entry h n l) →
    queue.length + g.labels.length ≤ fuel + l.length →
    ∃ l', loopBody g doms h fuel (l, queue) = some l' ∧ LoopOK g entry h l' ∧ (∀ n ∈ l, n ∈ l') ∧
      ∀ n ∈ l', n ≠ h → Done g entry h n l' := by
  intro fuel
  induction fuel with
  | zero =>
    intro l queue hl hq hdone hf
    have := hl.nodup.length_le_of_subset (fun n hn => hl.label n hn)
    have hq0 : queue = [] := List.eq_nil_of_length_eq_zero (by omega)
    subst hq0
    exact ⟨l, by simp [loopBody], hl, fun _ h => h, fun n hn => hdone n hn (by simp)⟩
  | succ fuel ih =>
    intro l queue hl hq hdone hf
    cases queue with
    | nil => exact ⟨l, by simp [loopBody], hl, fun _ h => h, fun n hn => hdone n hn (by simp)⟩
    | cons n queue =>
      have hnl := hq n (by simp)
      have hpar : ∀ p, p ∈ g.parentsSorted n ↔ g.Edge p n := by
        intro p
        simp only [Graph.parentsSorted, mem_sortLabels]
        exact (w.sym p n).symm
      obtain ⟨new, e, h1, h2⟩ := loopParents_spec hdoms (hl.sound n hnl) (g.parentsSorted n)
        (queue := queue) (fun p hp => (hpar p).1 hp) hl
      simp only [loopBody, e]
      obtain ⟨l', e', h3, h4, h5⟩ := ih (l := l ++ new) (queue := queue ++ new) h1 (by
          intro m hm
          rcases List.mem_append.1 hm with hm | hm
          · exact List.mem_append_left _ (hq m (List.mem_cons_of_mem _ hm))
          · exact List.mem_append_right _ hm) (by
          intro m hm hmq hmh
          rcases List.mem_append.1 hm with hm | hm
          · by_cases hmn : m = n
            · subst hmn
              exact fun p hp hr hd => h2 p ((hpar p).2 hp) hr hd
            · have hmq' : m ∉ n :: queue := by
                simp only [List.mem_cons, not_or]
                exact ⟨hmn, fun h => hmq (List.mem_append_left _ h)⟩
              exact fun p hp hr hd => List.mem_append_left _ (hdone m hm hmq' hmh p hp hr hd)
          · exact absurd (List.mem_append_right _ hm) hmq) (by
          simp only [List.length_append, List.length_cons] at hf ⊢
          omega)
      exact ⟨l', e', h3, fun m hm => h4 m (List.mem_append_left _ hm), h5⟩

/-- A back edge of the graph. -/
def Back (g : Graph) (entry t h : Nat) : Prop :=
  Reach g.Edge entry t ∧ g.Edge t h ∧ Dominates g.Edge entry h t

/-- What is known after the edges `es`. -/
structure LoopsOK (g : Graph) (entry : Nat) (es : List (Nat × Nat)) (loops : List (Nat × List Nat)) :
    Prop where
  ok : ∀ h l, loops.lookup h = some l → LoopOK g entry h l ∧ ∃ t, Back g entry t h
  closed : ∀ h l, loops.lookup h = some l → ∀ n ∈ l, n ≠ h → Done g entry h n l
  has : ∀ t h, (t, h) ∈ es → Back g entry t h → ∃ l, loops.lookup h = some l ∧ h ∈ l ∧ t ∈ l

theorem loopEdge_spec {g : Graph} (w : WF g) {doms : List (Nat × List Nat)}
    (hdoms : ∀ a b, dominates doms a b = true ↔ Reach g.Edge entry b ∧ Dominates g.Edge entry a b)
    {es : List (Nat × Nat)} {loops : List (Nat × List Nat)} (ok : LoopsOK g entry es loops)
    {t h : Nat} (he : g.Edge t h) :
    ∃ loops', loopEdge g doms loops (t, h) = some loops' ∧ LoopsOK g entry (es ++ [(t, h)]) loops' := by
  simp only [loopEdge]
  by_cases hd : dominates doms h t = true
  · have hb : Back g entry t h := ⟨((hdoms h t).1 hd).1, he, ((hdoms h t).1 hd).2⟩
    have hhr : Reach g.Edge entry h := dom_reach hb.1 hb.2.2
    obtain ⟨l0, e0, hl0, hmem, hh0, ht0⟩ : ∃ l0,
        (insertInto (insertInto loops h h) h t).lookup h = some l0 ∧ LoopOK g entry h l0 ∧
        (∀ n ∈ l0, n = t ∨ n = h ∨ (∃ l, loops.lookup h = some l ∧ n ∈ l)) ∧ h ∈ l0 ∧ t ∈ l0 ∧ True := by
      have hh : InNaturalLoop g.Edge entry h h := ⟨t, hb.1, he, hb.2.2, .inl rfl⟩
      have ht : InNaturalLoop g.Edge entry h t := natural_pred hh he hb.1 hb.2.2
      have hset : ∀ s : List Nat, LoopOK g entry h s ∨ s = [] → ∀ x, InNaturalLoop g.Edge entry h x →
          Reach g.Edge entry x → Dominates g.Edge entry h x → x ∈ g.labels →
          LoopOK g entry h (setInsert s x) := by
        intro s hs x hx1 hx2 hx3 hx4
        have hs' : LoopOK g entry h s := by
          rcases hs with hs | rfl
          · exact hs
          · exact ⟨by simp, by simp, by simp, by simp⟩
        refine ⟨nodup_setInsert hs'.nodup, ?_, ?_, ?_⟩ <;>
        · intro q hq
          rcases mem_setInsert.1 hq with hq | hq
          · first
            | exact hs'.label q hq
            | exact hs'.sound q hq
            | exact hs'.reach q hq
          · subst hq
            first
            | exact hx4
            | exact hx1
            | exact ⟨hx2, hx3⟩
      have hhl : h ∈ g.labels := w.child_label he
      have htl : t ∈ g.labels := mem_labels_of_child he
      cases hlk : loops.lookup h with
      | none =>
        refine ⟨setInsert [h] t, ?_, ?_, ?_, ?_, ?_, trivial⟩
        · simp [insertInto, hlk]
        · refine hset [h] (.inl ?_) t ht hb.1 hb.2.2 htl
          have := hset [] (.inr rfl) h hh hhr dom_self hhl
          simpa [setInsert] using this
        · intro n hn
          rcases mem_setInsert.1 hn with hn | hn
          · exact .inr (.inl (by simpa using hn))
          · exact .inl hn
        · exact mem_setInsert.2 (.inl (by simp))
        · exact mem_setInsert.2 (.inr rfl)
      | some s =>
        refine ⟨setInsert (setInsert s h) t, ?_, ?_, ?_, ?_, ?_, trivial⟩
        · simp [insertInto, hlk]
        · exact hset _ (.inl (hset s (.inl (ok.ok h s hlk).1) h hh hhr dom_self hhl)) t ht hb.1 hb.2.2 htl
        · intro n hn
          rcases mem_setInsert.1 hn with hn | hn
          · rcases mem_setInsert.1 hn with hn | hn
            · exact .inr (.inr ⟨s, rfl, hn⟩)
            · exact .inr (.inl hn)
          · exact .inl hn
        · exact mem_setInsert.2 (.inl (mem_setInsert.2 (.inr rfl)))
        · exact mem_setInsert.2 (.inr rfl)
    have hsub : ∀ l, loops.lookup h = some l → ∀ n ∈ l, n ∈ l0 := by
      intro l hl n hn
      simp only [insertInto, hl] at e0
      simp at e0
      rw [← e0]
      exact mem_setInsert.2 (.inl (mem_setInsert.2 (.inl hn)))
    obtain ⟨l1, e1, hl1, hs1, hc1⟩ := loopBody_spec w hdoms (fuel := g.labels.length + 1) (l := l0)
      (queue := [t]) hl0 (by simpa using ht0.1) (by
        intro n hn hnq hnh
        rcases hmem n hn with h' | h' | ⟨l, hl, hnl⟩
        · exact absurd h' (by simpa using hnq)
        · exact absurd h' hnh
        · exact fun p hp hr hd => hsub l hl p (ok.closed h l hl n hnl hnh p hp hr hd))
      (by simp only [List.length_singleton]; omega)
    refine ⟨(h, l1) :: (insertInto (insertInto loops h h) h t).filter (fun x => x.1 != h), ?_, ?_⟩
    · simp only [hd, if_true, e0, e1, Option.bind_eq_bind, Option.bind_some]
    · have hlk : ∀ a, ((h, l1) :: (insertInto (insertInto loops h h) h t).filter
          (fun x => x.1 != h)).lookup a = if a = h then some l1 else loops.lookup a := by
        intro a
        by_cases ha : a = h
        · subst ha; simp
        · have hb' : (a == h) = false := by simpa using ha
          rw [List.lookup_cons, hb', lookup_filter_ne' ha, if_neg ha]
          have ins : ∀ (m : List (Nat × List Nat)) (x : Nat), (insertInto m h x).lookup a = m.lookup a := by
            intro m x
            simp only [insertInto]
            split
            · rw [List.lookup_cons, hb', lookup_filter_ne' ha]
            · rw [List.lookup_cons, hb']
          rw [ins, ins]
      refine ⟨?_, ?_, ?_⟩
      · intro a l hl
        rw [hlk] at hl
        split at hl
        · rename_i ha
          obtain rfl := Option.some.inj hl
          rw [ha]
          exact ⟨hl1, t, hb⟩
        · exact ok.ok a l hl
      · intro a l hl
        rw [hlk] at hl
        split at hl
        · rename_i ha
          obtain rfl := Option.some.inj hl
          rw [ha]
          exact hc1
        · exact ok.closed a l hl
      · intro t' h' hm hb'
        rw [hlk]
        rcases List.mem_append.1 hm with hm | hm
        · obtain ⟨l, e, h1, h2⟩ := ok.has t' h' hm hb'
          by_cases ha : h' = h
          · subst ha
            exact ⟨l1, by simp, hs1 _ (hsub l e _ h1), hs1 _ (hsub l e _ h2)⟩
          · exact ⟨l, by simp [ha, e], h1, h2⟩
        · simp only [List.mem_singleton, Prod.mk.injEq] at hm
          obtain ⟨rfl, rfl⟩ := hm
          exact ⟨l1, by simp, hs1 _ hh0, hs1 _ ht0.1⟩
  · refine ⟨loops, by simp [hd], ok.ok, ok.closed, ?_⟩
    intro t' h' hm hb'
    rcases List.mem_append.1 hm with hm | hm
    · exact ok.has t' h' hm hb'
    · simp only [List.mem_singleton, Prod.mk.injEq] at hm
      obtain ⟨rfl, rfl⟩ := hm
      exact absurd ((hdoms h' t').2 ⟨hb'.1, hb'.2.2⟩) hd

theorem loopEdges_spec {g : Graph} (w : WF g) {doms : List (Nat × List Nat)}
    (hdoms : ∀ a b, dominates doms a b = true ↔ Reach g.Edge entry b ∧ Dominates g.Edge entry a b) :
    ∀ (rest es : List (Nat × Nat)) {loops : List (Nat × List Nat)}, LoopsOK g entry es loops →
    (∀ e ∈ rest, g.Edge e.1 e.2) →
    ∃ loops', rest.foldlM (loopEdge g doms) loops = some loops' ∧ LoopsOK g entry (es ++ rest) loops'
  | [], es, loops, ok, _ => ⟨loops, rfl, by simpa using ok⟩
  | e :: rest, es, loops, ok, h => by
    obtain ⟨t, hd⟩ := e
    obtain ⟨l1, e1, ok1⟩ := loopEdge_spec w hdoms ok (h (t, hd) (by simp))
    obtain ⟨l2, e2, ok2⟩ := loopEdges_spec w hdoms rest (es ++ [(t, hd)]) ok1
      (fun e he => h e (List.mem_cons_of_mem _ he))
    exact ⟨l2, by simp [e1, e2], by simpa using ok2⟩

theorem natural_mem {g : Graph} {h : Nat} {l : List Nat} (hok : LoopOK g entry h l)
    (hc : ∀ n ∈ l, n ≠ h → Done g entry h n l) {n t : Nat} {p : List Nat} (hw : Walk g.Edge n p t)
    (hn : Reach g.Edge entry n) (hp : h ∉ p) (ht : t ∈ l) : n ∈ l := by
  induction hw with
  | start => exact ht
  | @step p b c hw e ih =>
    have hch : c ≠ h := by
      rintro rfl
      exact hp (by simp)
    refine ih (fun h' => hp (List.mem_append_left _ h')) (hc c ht hch b e ?_ ?_)
    · exact hn.trans (reach_of_walk hw)
    · exact dom_pred (hok.reach c ht).2 (Ne.symm hch) e

theorem IsTree.findLoops_spec {g : Graph} (w : WF g) {d : Dom} (t : IsTree g.Edge entry d) :
    ∃ loops, findLoops g d = some loops ∧
      ∀ h, (∃ l, loops.lookup h = some l ∧ l.Nodup ∧ (∃ t, Back g entry t h) ∧
          ∀ n, n ∈ l ↔ InNaturalLoop g.Edge entry h n) ∨
        (loops.lookup h = none ∧ ¬ ∃ t, Back g entry t h) := by
  obtain ⟨doms, e, hdoms⟩ := t.doms_spec
  have hedges : ∀ a b, (a, b) ∈ g.labelsSorted.flatMap
      (fun t => (g.childrenSorted t).map (fun h => (t, h))) ↔ g.Edge a b := by
    intro a b
    simp only [List.mem_flatMap, List.mem_map, Prod.mk.injEq, Graph.labelsSorted, mem_sortLabels,
      Graph.childrenSorted]
    constructor
    · rintro ⟨t, -, c, hc, rfl, rfl⟩
      exact hc
    · intro he
      exact ⟨a, mem_labels_of_child he, b, he, rfl, rfl⟩
  obtain ⟨loops, e2, ok⟩ := loopEdges_spec w hdoms (g.labelsSorted.flatMap
      (fun t => (g.childrenSorted t).map (fun h => (t, h)))) [] (loops := [])
    ⟨by simp, by simp, by simp⟩ (fun e he => (hedges e.1 e.2).1 he)
  refine ⟨loops, by simp only [findLoops, e, e2, Option.bind_eq_bind, Option.bind_some], ?_⟩
  intro h
  cases hl : loops.lookup h with
  | none =>
    refine .inr ⟨rfl, ?_⟩
    rintro ⟨t, hb⟩
    obtain ⟨l, e, -⟩ := ok.has t h (by simpa using (hedges t h).2 hb.2.1) hb
    rw [hl] at e
    simp at e
  | some l =>
    obtain ⟨hok, hb⟩ := ok.ok h l hl
    refine .inl ⟨l, rfl, hok.nodup, hb, ?_⟩
    intro n
    refine ⟨hok.sound n, ?_⟩
    rintro ⟨t, ht, he, hd, hn⟩
    obtain ⟨l', e', h1, h2⟩ := ok.has t h (by simpa using (hedges t h).2 he) ⟨ht, he, hd⟩
    rw [hl] at e'
    obtain rfl := Option.some.inj e'
    rcases hn with rfl | ⟨hr, p, hw, hp⟩
    · exact h1
    · exact natural_mem hok (ok.closed h l hl) hw hr hp h2

end Verif.Dom
