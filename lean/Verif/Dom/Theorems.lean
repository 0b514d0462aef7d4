import Verif.Dom.Derived
import Verif.Graph.Theorems
/-!
# C28, C60–C62: dominators, dominance queries, dominance frontiers and natural loops
-/

namespace Verif.Dom

open Verif.Graph

theorem edge_eq (g : Graph) : (fun a b => b ∈ g.childrenSorted a) = g.Edge := by
  funext a b
  simp only [Graph.childrenSorted, mem_sortLabels, Graph.Edge]

theorem calculateDom_tree (ops : List Op) (g : Graph) (h : run ops = some g) (entry fuel : Nat)
    (hf : g.labels.length + 3 ≤ fuel) :
    ∃ d, calculateDom g fuel entry = some d ∧ IsTree g.Edge entry d := by
  have w := ((C26_history ops).2 g h).wf
  obtain ⟨d, e, t⟩ := calculate_tree (nbrs := g.childrenSorted) (preds := g.parentsSorted)
    (U := entry :: g.labels)
    (fun x _ c hc => List.mem_cons_of_mem _ (w.child_label (mem_sortLabels.1 hc)))
    (fun a b => by
      simp only [Graph.childrenSorted, Graph.parentsSorted, mem_sortLabels]
      exact (w.sym a b).symm)
    (entry := entry) (fuel := fuel) (by simp) (by simpa using hf)
  rw [edge_eq] at t
  exact ⟨d, e, t⟩

theorem tree_of_eq {ops : List Op} {g : Graph} (h : run ops = some g) {entry fuel : Nat} {d : Dom}
    (hf : g.labels.length + 3 ≤ fuel) (hd : calculateDom g fuel entry = some d) :
    IsTree g.Edge entry d := by
  obtain ⟨d', e, t⟩ := calculateDom_tree ops g h entry fuel hf
  rw [hd] at e
  obtain rfl := Option.some.inj e
  exact t

/-! ## C28 -/

/-- **C28.**  On every graph built with the API and for every entry, reducible or not, the iteration
ends without panicking; the immediate dominator it reports for a reachable node other than the entry is
the immediate dominator by the definition over all walks from the entry; and it reports none for the
entry and for unreachable nodes.  The bound on the number of passes is three more than the number of
nodes. -/
theorem C28_immediate_dominators (ops : List Op) (g : Graph) (h : run ops = some g)
    (entry fuel : Nat) (hf : g.labels.length + 3 ≤ fuel) :
    ∃ d, calculateDom g fuel entry = some d ∧
      (∀ n, Reach g.Edge entry n → n ≠ entry →
        ∃ p, d.idomOf n = some p ∧ ∀ q, IsIdom g.Edge entry q n ↔ q = p) ∧
      (∀ n, ¬ Reach g.Edge entry n ∨ n = entry → d.idomOf n = none) := by
  obtain ⟨d, e, t⟩ := calculateDom_tree ops g h entry fuel hf
  refine ⟨d, e, ?_, t.noIdom⟩
  intro n hr hn
  obtain ⟨p, hp, hi, -⟩ := t.idom n hr hn
  refine ⟨p, hp, fun q => ⟨fun hq => idom_unique hr hq hi, fun hq => hq ▸ hi⟩⟩

/-- An irreducible graph: the cycle between 2 and 3 is entered at both nodes. -/
def irreducible : List Op :=
  [.connect 0 1, .connect 1 2, .connect 1 3, .connect 2 3, .connect 3 2, .connect 3 4, .connect 4 1,
   .connect 9 2]

example : ∃ g d, run irreducible = some g ∧ g.labels.length + 3 ≤ 10 ∧
    calculateDom g 10 0 = some d ∧ d.idomOf 2 = some 1 ∧ d.idomOf 3 = some 1 ∧
    d.idomOf 4 = some 3 ∧ d.idomOf 0 = none ∧ d.idomOf 9 = none :=
  ⟨_, _, rfl, by decide, rfl, by decide, by decide, by decide, by decide, by decide⟩

/-! ## C60 -/

/-- **C60.**  The queries over the tree answer by the definition of dominance: `dominated_by(a, b)` and
`dominates(b, a)` are true exactly when `a` is reachable and every walk from the entry to `a` visits
`b`. -/
theorem C60_dominates (ops : List Op) (g : Graph) (h : run ops = some g) (entry fuel : Nat) (d : Dom)
    (hf : g.labels.length + 3 ≤ fuel) (hd : calculateDom g fuel entry = some d) :
    (∃ m, d.dominatedByGraph = some m ∧ ∀ a b,
      dominatedBy m a b = true ↔ Reach g.Edge entry a ∧ Dominates g.Edge entry b a) ∧
    (∃ m, d.dominatesGraph = some m ∧ ∀ a b,
      dominates m a b = true ↔ Reach g.Edge entry b ∧ Dominates g.Edge entry a b) := by
  have t := tree_of_eq h hf hd
  refine ⟨?_, t.doms_spec⟩
  obtain ⟨m, e, h1, -, -⟩ := t.bys_spec
  refine ⟨m, e, ?_⟩
  intro a b
  simp only [dominatedBy]
  rcases h1 a with ⟨l, e', hr, hm⟩ | ⟨e', hr⟩
  · rw [e']
    simp only [List.contains_iff_mem, hm]
    exact ⟨fun h => ⟨hr, h⟩, fun h => h.2⟩
  · rw [e']
    simp [hr]

/-- **C60.**  `immediately_dominated_by(p)` lists exactly the reachable nodes whose immediate dominator
is `p`, in increasing order without repetition. -/
theorem C60_children (ops : List Op) (g : Graph) (h : run ops = some g) (entry fuel : Nat) (d : Dom)
    (hf : g.labels.length + 3 ≤ fuel) (hd : calculateDom g fuel entry = some d) (p : Nat) :
    (d.immediatelyDominatedBy p).Pairwise (fun a b : Nat => a < b) ∧
    ∀ n, n ∈ d.immediatelyDominatedBy p ↔
      Reach g.Edge entry n ∧ n ≠ entry ∧ IsIdom g.Edge entry p n := by
  have t := tree_of_eq h hf hd
  constructor
  · have hn : (d.immediatelyDominatedBy p).Nodup := by
      refine sortLabels_perm.nodup_iff.2 ?_
      refine List.Nodup.sublist ?_ t.keys
      exact List.Sublist.map _ List.filter_sublist
    refine (sortLabels_le.and hn).imp ?_
    rintro a b ⟨h1, h2⟩
    omega
  · intro n
    simp only [Dom.immediatelyDominatedBy, mem_sortLabels, List.mem_map, List.mem_filter,
      Prod.exists, exists_and_right, exists_eq_right, beq_iff_eq]
    have hlk : (n, p) ∈ d.idomBy ↔ d.idomOf n = some p := mem_lookup t.keys
    constructor
    · intro hm
      have hkey : n ∈ d.idomBy.map (·.1) := List.mem_map.2 ⟨_, hm, rfl⟩
      obtain ⟨hr, hne⟩ := t.key_iff.1 hkey
      obtain ⟨p', e, hi, -⟩ := t.idom n hr hne
      rw [hlk.1 hm] at e
      obtain rfl := Option.some.inj e
      exact ⟨hr, hne, hi⟩
    · rintro ⟨hr, hne, hi⟩
      obtain ⟨p', e, hi', -⟩ := t.idom n hr hne
      obtain rfl := idom_unique hr hi hi'
      exact hlk.2 e

/-- **C60.**  `lca` of reachable nodes is their nearest common dominator: it dominates both and every
common dominator dominates it.  For two different nodes of which one is unreachable there is none. -/
theorem C60_lca (ops : List Op) (g : Graph) (h : run ops = some g) (entry fuel : Nat) (d : Dom)
    (hf : g.labels.length + 3 ≤ fuel) (hd : calculateDom g fuel entry = some d) (a b : Nat) :
    (Reach g.Edge entry a → Reach g.Edge entry b →
      ∃ c, d.lca a b = some c ∧ Dominates g.Edge entry c a ∧ Dominates g.Edge entry c b ∧
        ∀ x, Dominates g.Edge entry x a → Dominates g.Edge entry x b →
          Dominates g.Edge entry x c) ∧
    (a ≠ b → ¬ Reach g.Edge entry a ∨ ¬ Reach g.Edge entry b → d.lca a b = none) := by
  have t := tree_of_eq h hf hd
  exact ⟨t.lca_spec, t.lca_none⟩

/-- **C60.**  `lca_all` of a nonempty list of reachable nodes is their nearest common dominator. -/
theorem C60_lca_all (ops : List Op) (g : Graph) (h : run ops = some g) (entry fuel : Nat) (d : Dom)
    (hf : g.labels.length + 3 ≤ fuel) (hd : calculateDom g fuel entry = some d) (ns : List Nat)
    (hne : ns ≠ []) (hr : ∀ n ∈ ns, Reach g.Edge entry n) :
    ∃ c, d.lcaAll ns = some c ∧ (∀ n ∈ ns, Dominates g.Edge entry c n) ∧
      ∀ x, (∀ n ∈ ns, Dominates g.Edge entry x n) → Dominates g.Edge entry x c := by
  have t := tree_of_eq h hf hd
  have key : ∀ (ns : List Nat) (acc : Nat), Reach g.Edge entry acc →
      (∀ n ∈ ns, Reach g.Edge entry n) →
      ∃ c, ns.foldlM d.lca acc = some c ∧ Dominates g.Edge entry c acc ∧
        (∀ n ∈ ns, Dominates g.Edge entry c n) ∧
        ∀ x, Dominates g.Edge entry x acc → (∀ n ∈ ns, Dominates g.Edge entry x n) →
          Dominates g.Edge entry x c := by
    intro ns
    induction ns with
    | nil => exact fun acc _ _ => ⟨acc, rfl, dom_self, by simp, fun x h _ => h⟩
    | cons n ns ih =>
      intro acc ha hns
      obtain ⟨c1, e1, h1, h2, h3⟩ := t.lca_spec ha (hns n (by simp))
      obtain ⟨c, e, h4, h5, h6⟩ := ih c1 (dom_reach ha h1)
        (fun m hm => hns m (List.mem_cons_of_mem _ hm))
      refine ⟨c, by simp [e1, e], dom_trans h4 h1, ?_, ?_⟩
      · intro m hm
        rcases List.mem_cons.1 hm with rfl | hm
        · exact dom_trans h4 h2
        · exact h5 m hm
      · intro x hx hxs
        exact h6 x (h3 x hx (hxs n (by simp))) (fun m hm => hxs m (List.mem_cons_of_mem _ hm))
  cases ns with
  | nil => exact absurd rfl hne
  | cons n ns =>
    obtain ⟨c, e, h1, h2, h3⟩ := key ns n (hr n (by simp))
      (fun m hm => hr m (List.mem_cons_of_mem _ hm))
    refine ⟨c, e, ?_, ?_⟩
    · intro m hm
      rcases List.mem_cons.1 hm with rfl | hm
      · exact h1
      · exact h2 m hm
    · intro x hx
      exact h3 x (hx n (by simp)) (fun m hm => hx m (List.mem_cons_of_mem _ hm))

example : ∃ g d m, run irreducible = some g ∧ calculateDom g 10 0 = some d ∧
    d.dominatesGraph = some m ∧ dominates m 1 4 = true ∧ dominates m 2 4 = false ∧
    dominates m 9 9 = false ∧ d.lca 2 4 = some 1 ∧ d.lca 2 9 = none ∧
    d.lcaAll [4, 3] = some 3 ∧ d.immediatelyDominatedBy 1 = [2, 3] :=
  ⟨_, _, _, rfl, rfl, rfl, by decide, by decide, by decide, by decide, by decide, by decide, by decide⟩

/-! ## C61 -/

/-- **C61.**  When every predecessor of a reachable node is reachable (unreachable blocks have been
removed), computing the dominance frontiers does not panic, and for every node other than the entry
membership is by the definition: `b` is in the frontier of `a` exactly when `b` is reachable, `a`
dominates a predecessor of `b` and does not strictly dominate `b`. -/
theorem C61_frontiers_partial (ops : List Op) (g : Graph) (h : run ops = some g) (entry fuel : Nat)
    (d : Dom) (hf : g.labels.length + 3 ≤ fuel) (hd : calculateDom g fuel entry = some d)
    (hp : ∀ p b, g.Edge p b → Reach g.Edge entry b → Reach g.Edge entry p) :
    ∃ df, d.dominanceFrontiers g = some df ∧
      (∀ a b, b ≠ entry →
        ((∃ s, df.lookup a = some s ∧ b ∈ s) ↔
          Reach g.Edge entry b ∧ InFrontier g.Edge entry a b)) ∧
      (∀ a s, df.lookup a = some s → entry ∉ s) := by
  have w := ((C26_history ops).2 g h).wf
  have t := tree_of_eq h hf hd
  obtain ⟨df, e, hm⟩ := t.frontiers_aux w hp d.postorder.reverse (df := [])
    (fun b hb => (t.mem b).1 (by simpa using hb))
  have hdf : ∀ a b, dominates df a b = true ↔ ∃ s, df.lookup a = some s ∧ b ∈ s := by
    intro a b
    simp only [dominates]
    cases df.lookup a with
    | none => simp
    | some s => simp
  refine ⟨df, e, ?_, ?_⟩
  · intro a b hb
    rw [← hdf, hm]
    constructor
    · rintro (h | ⟨h, -, h'⟩)
      · simp [dominates] at h
      · exact ⟨(t.mem b).1 (by simpa using h), h'⟩
    · rintro ⟨hr, h⟩
      exact .inr ⟨by simpa using (t.mem b).2 hr, hb, h⟩
  · intro a s hs hin
    have := (hm a entry).1 ((hdf a entry).2 ⟨s, hs, hin⟩)
    rcases this with h | ⟨-, h, -⟩
    · simp [dominates] at h
    · exact h rfl

/-- **C61**, complete when the entry has no predecessor, as in a control-flow graph with a fresh entry
block: the frontiers are exact for all nodes. -/
theorem C61_frontiers (ops : List Op) (g : Graph) (h : run ops = some g) (entry fuel : Nat)
    (d : Dom) (hf : g.labels.length + 3 ≤ fuel) (hd : calculateDom g fuel entry = some d)
    (hp : ∀ p b, g.Edge p b → Reach g.Edge entry b → Reach g.Edge entry p)
    (he : ∀ p, ¬ g.Edge p entry) :
    ∃ df, d.dominanceFrontiers g = some df ∧ ∀ a b,
      (∃ s, df.lookup a = some s ∧ b ∈ s) ↔
        Reach g.Edge entry b ∧ InFrontier g.Edge entry a b := by
  obtain ⟨df, e, h1, h2⟩ := C61_frontiers_partial ops g h entry fuel d hf hd hp
  refine ⟨df, e, ?_⟩
  intro a b
  by_cases hb : b = entry
  · subst hb
    constructor
    · rintro ⟨s, hs, hin⟩
      exact absurd hin (h2 a s hs)
    · rintro ⟨-, ⟨p, hp, -⟩, -⟩
      exact absurd hp (he p)
  · exact h1 a b hb

/-- **C61, the limit.**  When the entry is the header of a loop it is missing from all frontiers, also
from that of the loop's last block and from its own. -/
theorem C61_entry_violated :
    ∃ (ops : List Op) (g : Graph) (d : Dom) (df : List (Nat × List Nat)), run ops = some g ∧
      calculateDom g 10 0 = some d ∧ d.dominanceFrontiers g = some df ∧
      InFrontier g.Edge 0 1 0 ∧ InFrontier g.Edge 0 0 0 ∧
      df.lookup 1 = none ∧ df.lookup 0 = none := by
  refine ⟨[.connect 0 1, .connect 1 0, .connect 2 0, .connect 1 2], _, _, _, rfl, rfl, rfl,
    ⟨⟨1, by simp [Graph.Edge]; decide, dom_self⟩, ?_⟩, ⟨⟨1, by simp [Graph.Edge]; decide, dom_entry⟩, ?_⟩,
    by decide, by decide⟩
  · rintro ⟨h, hne⟩
    exact hne (dom_of_entry h)
  · rintro ⟨h, hne⟩
    exact hne rfl

/-- **C61, the limit.**  An unreachable predecessor of a join makes the computation panic. -/
theorem C61_unreachable_violated :
    ∃ (ops : List Op) (g : Graph) (d : Dom), run ops = some g ∧
      calculateDom g 10 0 = some d ∧ d.dominanceFrontiers g = none :=
  ⟨[.connect 0 1, .connect 2 1], _, _, rfl, rfl, by decide⟩

/-- A loop with a conditional in its body. -/
def loopOps : List Op :=
  [.connect 0 1, .connect 1 2, .connect 1 3, .connect 2 4, .connect 3 4, .connect 4 1, .connect 4 5]

example : ∃ g d df, run loopOps = some g ∧ calculateDom g 10 0 = some d ∧
    d.dominanceFrontiers g = some df ∧ df.lookup 2 = some [4] ∧ df.lookup 3 = some [4] ∧
    df.lookup 4 = some [1] ∧ df.lookup 1 = some [1] ∧ df.lookup 0 = none ∧
    (∀ p, ¬ g.Edge p 0) ∧ g.labels.length + 3 ≤ 10 := by
  refine ⟨_, _, _, rfl, rfl, rfl, by decide, by decide, by decide, by decide, by decide, ?_, by decide⟩
  intro p hp
  have w := ((C26_history loopOps).2 _ rfl).wf
  have hm : p ∈ Graph.parents _ 0 := (w.sym p 0).1 hp
  have h0 : (run loopOps).map (fun g => g.parents 0) = some [] := by decide
  simp only [run, loopOps] at h0
  have h1 := Option.some.inj h0
  dsimp only at h1
  rw [h1] at hm
  simp at hm

/-! ## C62 -/

/-- **C62.**  `find_loops` ends without panicking; its keys are exactly the headers of back edges (edges
from a reachable block to a block that dominates it), and the blocks listed for a header are exactly its
natural loop: the header itself and the reachable blocks that can reach the source of one of its back
edges without passing through it. -/
theorem C62_natural_loops (ops : List Op) (g : Graph) (h : run ops = some g) (entry fuel : Nat)
    (d : Dom) (hf : g.labels.length + 3 ≤ fuel) (hd : calculateDom g fuel entry = some d) :
    ∃ loops, findLoops g d = some loops ∧ ∀ hd : Nat,
      ((∃ t, Reach g.Edge entry t ∧ g.Edge t hd ∧ Dominates g.Edge entry hd t) ↔
        (loops.lookup hd).isSome) ∧
      ∀ l, loops.lookup hd = some l → l.Nodup ∧
        ∀ n, n ∈ l ↔ InNaturalLoop g.Edge entry hd n := by
  have w := ((C26_history ops).2 g h).wf
  have t := tree_of_eq h hf hd
  obtain ⟨loops, e, hm⟩ := t.findLoops_spec w
  refine ⟨loops, e, ?_⟩
  intro x
  rcases hm x with ⟨l, e', hn, hb, hl⟩ | ⟨e', hb⟩
  · refine ⟨⟨fun _ => by rw [e']; rfl, fun _ => hb⟩, ?_⟩
    intro l' h'
    rw [e'] at h'
    obtain rfl := Option.some.inj h'
    exact ⟨hn, hl⟩
  · refine ⟨⟨fun h => absurd h hb, fun h => by rw [e'] at h; simp at h⟩, ?_⟩
    intro l' h'
    rw [e'] at h'
    simp at h'

example : ∃ g d loops, run loopOps = some g ∧ calculateDom g 10 0 = some d ∧
    findLoops g d = some loops ∧ loops = [(1, [1, 4, 2, 3])] :=
  ⟨_, _, _, rfl, rfl, rfl, by decide⟩

example : ∃ g d loops, run irreducible = some g ∧ calculateDom g 10 0 = some d ∧
    findLoops g d = some loops ∧ loops = [(1, [1, 4, 3, 2])] :=
  ⟨_, _, _, rfl, rfl, rfl, by decide⟩

end Verif.Dom
