import Verif.Graph.Search
/-!
# C26, C27, C59: graphs, unreachable blocks and postorder
-/

namespace Verif.Graph

/-! ## C26 -/

/-- The program's graph `g` represents the mathematical graph `d`: the same nodes, `children` and
`parents` both list exactly the edges, without repetition. -/
structure Represents (g : Graph) (d : Digraph) : Prop where
  nodes : ∀ k, g.contains k = true ↔ d.node k
  children : ∀ a b, b ∈ g.children a ↔ d.edge a b
  parents : ∀ a b, a ∈ g.parents b ↔ d.edge a b
  childrenNodup : ∀ a, (g.children a).Nodup
  parentsNodup : ∀ a, (g.parents a).Nodup
  labelsNodup : g.labels.Nodup

theorem Represents.wf {g : Graph} {d : Digraph} (r : Represents g d) : WF g :=
  ⟨r.labelsNodup, fun a b => (r.children a b).trans (r.parents a b).symm, r.childrenNodup,
   r.parentsNodup⟩

theorem Represents.of_wf {g : Graph} {d : Digraph} (w : WF g)
    (hn : ∀ k, k ∈ g.labels ↔ d.node k) (hc : ∀ a b, b ∈ g.children a ↔ d.edge a b) :
    Represents g d :=
  ⟨fun k => contains_iff.trans (hn k), hc, fun a b => (w.sym a b).symm.trans (hc a b), w.ncs, w.nps,
   w.keys⟩

theorem represents_new : Represents Graph.new Digraph.empty :=
  .of_wf wf_new (by simp [Graph.new, Graph.labels, Digraph.empty])
    (by simp [Graph.new, Graph.children, Graph.get, Digraph.empty])

/-- One call. -/
theorem apply_spec {g : Graph} {d : Digraph} (r : Represents g d) (op : Op) :
    (op.Allowed d → ∃ g', g.apply op = some g') ∧
    (∀ g', g.apply op = some g' → op.Allowed d ∧ Represents g' (op.after d)) := by
  have w := r.wf
  have hl : ∀ k, k ∈ g.labels ↔ d.node k := fun k => contains_iff.symm.trans (r.nodes k)
  cases op with
  | connect p c =>
    refine ⟨fun _ => ⟨_, rfl⟩, ?_⟩
    intro g' h
    obtain rfl := Option.some.inj h
    refine ⟨trivial, .of_wf (wf_connect w p c) ?_ ?_⟩
    · intro k
      rw [mem_labels_connect, hl]
      exact Iff.rfl
    · intro a b
      rw [children_connect]
      simp only [Op.after]
      by_cases ha : a = p
      · subst ha
        simp [mem_setInsert, r.children]
      · simp [ha, r.children]
  | disconnect p c =>
    constructor
    · rintro ⟨hp, hc⟩
      obtain ⟨g', e, -⟩ := disconnect_eq ((hl p).2 hp) ((hl c).2 hc)
      exact ⟨g', e⟩
    · intro g' h
      obtain ⟨w', ⟨hp, hc⟩, hl', hch⟩ := disconnect_wf w h
      refine ⟨⟨(hl p).1 hp, (hl c).1 hc⟩, .of_wf w' ?_ ?_⟩
      · intro k
        rw [hl']
        exact hl k
      · intro a b
        rw [hch, r.children]
        exact Iff.rfl
  | pop n =>
    constructor
    · rintro ⟨hn, h1, h2⟩
      refine ⟨_, pop_eq ((hl n).2 hn) ?_ ?_⟩
      · exact List.eq_nil_iff_forall_not_mem.2 (fun m hm => h1 m ((r.children n m).1 hm))
      · exact List.eq_nil_iff_forall_not_mem.2 (fun m hm => h2 m ((r.parents m n).1 hm))
    · intro g' h
      have w' := pop_wf w h
      obtain ⟨hn, hc, hp, rfl⟩ := pop_some h
      have no1 : ∀ m, ¬ d.edge n m := fun m hm => by
        have := (r.children n m).2 hm
        rw [hc] at this
        simp at this
      have no2 : ∀ m, ¬ d.edge m n := fun m hm => by
        have := (r.parents m n).2 hm
        rw [hp] at this
        simp at this
      refine ⟨⟨(hl n).1 hn, no1, no2⟩, .of_wf w' ?_ ?_⟩
      · intro k
        rw [mem_labels_erase, hl]
        exact Iff.rfl
      · intro a b
        rw [children_erase]
        simp only [Op.after]
        by_cases ha : a = n
        · subst ha
          simp [no1]
        · simp [ha, r.children]
  | contract n =>
    constructor
    · intro hn
      obtain ⟨g', e, -⟩ := contract_eq w ((hl n).2 hn)
      exact ⟨g', e⟩
    · intro g' h
      obtain ⟨w', hn, hl', hch⟩ := contract_wf w h
      refine ⟨(hl n).1 hn, .of_wf w' ?_ ?_⟩
      · intro k
        rw [hl']
        simp only [List.mem_filter, bne_iff_ne, ne_eq, hl, Op.after]
      · intro a b
        rw [hch]
        simp only [r.children, Op.after]

theorem run_spec : ∀ (ops : List Op) {g : Graph} {d : Digraph}, Represents g d →
    (Legal d ops → ∃ g', ops.foldlM Graph.apply g = some g') ∧
    (∀ g', ops.foldlM Graph.apply g = some g' → Legal d ops ∧ Represents g' (afterAll d ops))
  | [], g, d, r => ⟨fun _ => ⟨g, rfl⟩, fun g' h => by
      obtain rfl := Option.some.inj h
      exact ⟨trivial, r⟩⟩
  | op :: ops, g, d, r => by
    obtain ⟨h1, h2⟩ := apply_spec r op
    constructor
    · rintro ⟨ha, hl⟩
      obtain ⟨g1, e1⟩ := h1 ha
      obtain ⟨g2, e2⟩ := (run_spec ops (h2 g1 e1).2).1 hl
      exact ⟨g2, by simp [e1, e2]⟩
    · intro g' h
      simp only [List.foldlM_cons, Option.bind_eq_bind, Option.bind_eq_some_iff] at h
      obtain ⟨g1, e1, e2⟩ := h
      obtain ⟨ha, r1⟩ := h2 g1 e1
      obtain ⟨hl, r2⟩ := (run_spec ops r1).2 g' e2
      exact ⟨⟨ha, hl⟩, r2⟩

/-- **C26.**  After any history of `connect`, `disconnect`, `pop` and `contract` calls the graph is the
mathematical graph the history describes: `children` and `parents` are two views of the same edges, and
`contract` has joined every parent of the removed node to every child.  The history panics exactly when
a call was not allowed. -/
theorem C26_history (ops : List Op) :
    ((∃ g, run ops = some g) ↔ Legal Digraph.empty ops) ∧
    ∀ g, run ops = some g → Represents g (afterAll Digraph.empty ops) := by
  obtain ⟨h1, h2⟩ := run_spec ops represents_new
  exact ⟨⟨fun ⟨g, e⟩ => (h2 g e).1, h1⟩, fun g e => (h2 g e).2⟩

/-- **C26.**  `a` is a parent of `b` exactly when `b` is a child of `a`, and `edges` lists exactly these
pairs. -/
theorem C26_symmetric (ops : List Op) (g : Graph) (h : run ops = some g) (a b : Nat) :
    (a ∈ g.parents b ↔ b ∈ g.children a) ∧ ((a, b) ∈ g.edges ↔ b ∈ g.children a) := by
  have r := (C26_history ops).2 g h
  refine ⟨(r.parents a b).trans (r.children a b).symm, ?_⟩
  simp only [Graph.edges, List.mem_flatMap, List.mem_map, Prod.mk.injEq, Prod.exists]
  constructor
  · rintro ⟨k, n, hm, c, hc, rfl, rfl⟩
    have := (mem_lookup r.labelsNodup).1 hm
    simp only [Graph.children, Graph.get, this]
    exact hc
  · intro hb
    have hl := mem_labels_of_child hb
    have := contains_iff.2 hl
    simp only [Graph.contains] at this
    obtain ⟨n, hn⟩ := Option.isSome_iff_exists.1 this
    refine ⟨a, n, (mem_lookup r.labelsNodup).2 hn, b, ?_, rfl, rfl⟩
    simpa [Graph.children, hn] using hb

theorem contract_reach_aux {g g' : Graph} {n : Nat}
    (hc : ∀ a b, b ∈ g'.children a ↔
      a ≠ n ∧ b ≠ n ∧ (b ∈ g.children a ∨ (n ∈ g.children a ∧ b ∈ g.children n))) {x y : Nat}
    (hx : x ≠ n) (h : Reach g.Edge x y) :
    (y ≠ n → Reach g'.Edge x y) ∧
    (y = n → ∃ z, Reach g'.Edge x z ∧ z ≠ n ∧ g.Edge z n) := by
  induction h with
  | refl => exact ⟨fun _ => .refl, fun e => absurd e hx⟩
  | @step b c h e ih =>
    constructor
    · intro hcn
      by_cases hb : b = n
      · obtain ⟨z, hz, hzn, ez⟩ := ih.2 hb
        subst hb
        exact .step hz ((hc z c).2 ⟨hzn, hcn, .inr ⟨ez, e⟩⟩)
      · exact .step (ih.1 hb) ((hc b c).2 ⟨hb, hcn, .inl e⟩)
    · intro hcn
      subst hcn
      by_cases hb : b = c
      · exact ih.2 hb
      · exact ⟨b, ih.1 hb, hb, e⟩

/-- **C26.**  Contracting a node preserves which of the remaining nodes can reach which. -/
theorem C26_contract_reach (ops : List Op) (g g' : Graph) (n : Nat) (h : run ops = some g)
    (hc : g.contract n = some g') (x y : Nat) (hx : x ≠ n) (hy : y ≠ n) :
    Reach g'.Edge x y ↔ Reach g.Edge x y := by
  have w := ((C26_history ops).2 g h).wf
  obtain ⟨-, -, -, hch⟩ := contract_wf w hc
  constructor
  · intro h
    induction h with
    | refl => exact .refl
    | @step b c _ e ih =>
      obtain ⟨hb, hcn, h | ⟨h1, h2⟩⟩ := (hch b c).1 e
      · exact .step (ih hb) h
      · exact .step (.step (ih hb) h1) h2
  · intro h
    exact (contract_reach_aux hch hx h).1 hy

/-- A graph with a self edge and a cycle through the contracted node. -/
def sampleOps : List Op :=
  [.connect 1 1, .connect 1 3, .connect 2 1, .connect 2 3, .connect 3 3, .connect 3 5, .connect 5 1]

example : ∃ g g', run sampleOps = some g ∧ g.contract 1 = some g' ∧
    (5, 3) ∈ g'.edges ∧ (5, 3) ∉ g.edges ∧ g'.contains 1 = false ∧ Legal Digraph.empty sampleOps := by
  refine ⟨_, _, rfl, rfl, by decide, by decide, by decide, ?_⟩
  simp [Legal, sampleOps, Op.Allowed]

example : run (sampleOps ++ [.pop 1]) = none ∧ run [.disconnect 1 2] = none ∧
    (run (sampleOps ++ [.contract 1, .disconnect 5 3])).isSome = true := by decide

/-! ## C27 -/

/-- **C27.**  On every graph built with the API the search ends, and it returns exactly the nodes of the
graph that the entry cannot reach, in increasing order and without repetition.  The bound on the number
of iterations is one more than the number of nodes. -/
theorem C27_find_unreachable (ops : List Op) (g : Graph) (h : run ops = some g) (entry fuel : Nat)
    (hf : g.labels.length + 1 ≤ fuel) :
    ∃ u, findUnreachable g fuel entry = some u ∧ u.Pairwise (fun a b : Nat => a < b) ∧
      ∀ x, x ∈ u ↔ g.contains x = true ∧ ¬ Reach g.Edge entry x := by
  have w := ((C26_history ops).2 g h).wf
  obtain ⟨u, e, hn, hs, hm⟩ := findUnreachable_spec w (entry := entry) hf
  refine ⟨u, e, ?_, fun x => (hm x).trans (and_congr_left' contains_iff.symm)⟩
  have := hs.and hn
  refine this.imp ?_
  rintro a b ⟨h1, h2⟩
  omega

/-- **C27.**  Removing the unreachable blocks does not panic when every node has a block, keeps exactly
the reachable nodes, keeps exactly the edges that leave a reachable node, and removes exactly the blocks
it reports. -/
theorem C27_remove_unreachable {β : Type} (ops : List Op) (c : Cfg β) (h : run ops = some c.graph)
    (hb : ∀ k, c.graph.contains k = true → k ∈ c.bblocks.map (·.1)) (fuel : Nat)
    (hf : c.graph.labels.length + 1 ≤ fuel) :
    ∃ c' u, c.findAndPopUnreachable fuel = some (c', u) ∧ c'.entry = c.entry ∧
      (∀ x, x ∈ u ↔ c.graph.contains x = true ∧ ¬ Reach c.graph.Edge c.entry x) ∧
      (∀ x, c'.graph.contains x = true ↔
        c.graph.contains x = true ∧ Reach c.graph.Edge c.entry x) ∧
      (∀ x y, c'.graph.Edge x y ↔ c.graph.Edge x y ∧ Reach c.graph.Edge c.entry x) ∧
      (∀ x y, x ∈ c'.graph.parents y ↔ c'.graph.Edge x y) ∧
      (∀ e, e ∈ c'.bblocks ↔ e ∈ c.bblocks ∧ e.1 ∉ u) := by
  have w := ((C26_history ops).2 _ h).wf
  obtain ⟨u, e, hn, -, hm⟩ := findUnreachable_spec w (entry := c.entry) hf
  have hcl : ∀ a b, b ∈ c.graph.children a → b ∈ u → a ∈ u := by
    intro a b hab hbu
    refine (hm a).2 ⟨mem_labels_of_child hab, ?_⟩
    intro hr
    exact ((hm b).1 hbu).2 (.step hr hab)
  obtain ⟨g', eg, wg, hl, hc⟩ := deleteMany_spec w hn (fun x hx => ((hm x).1 hx).1) hcl
  have eb := removeMany_spec (bs := c.bblocks) hn
    (fun x hx => hb x (contains_iff.2 ((hm x).1 hx).1))
  refine ⟨{ c with graph := g', bblocks := c.bblocks.filter (fun e => !(u.contains e.1)) }, u,
    ?_, rfl, ?_, ?_, ?_, ?_, ?_⟩
  · simp only [Cfg.findAndPopUnreachable, e, eg, eb, Option.bind_eq_bind, Option.bind_some]
  · exact fun x => (hm x).trans (and_congr_left' contains_iff.symm)
  · intro x
    rw [contains_iff, contains_iff]
    dsimp only
    rw [hl, hm]
    constructor
    · rintro ⟨h1, h2⟩
      exact ⟨h1, Classical.byContradiction fun hr => h2 ⟨h1, hr⟩⟩
    · rintro ⟨h1, h2⟩
      exact ⟨h1, fun h3 => h3.2 h2⟩
  · intro x y
    simp only [Graph.Edge]
    rw [hc, hm, hm]
    constructor
    · rintro ⟨h1, h2, -⟩
      exact ⟨h1, Classical.byContradiction fun hr => h2 ⟨mem_labels_of_child h1, hr⟩⟩
    · rintro ⟨h1, h2⟩
      exact ⟨h1, fun h3 => h3.2 h2, fun h3 => h3.2 (.step h2 h1)⟩
  · exact fun x y => (wg.sym x y).symm
  · intro x
    simp

/-- **C27, the limit.**  A block without any edge is not a node of the graph, so an unreachable one is
not found and stays. -/
theorem C27_isolated_block_violated :
    ∃ (ops : List Op) (c c' : Cfg Nat) (u : List Nat), run ops = some c.graph ∧
      c.findAndPopUnreachable 10 = some (c', u) ∧ (7, 70) ∈ c'.bblocks ∧ c.entry ≠ 7 ∧
      ¬ Reach c.graph.Edge c.entry 7 := by
  refine ⟨[.connect 0 1, .connect 1 0], ⟨⟨[(0, ⟨[1], [1]⟩), (1, ⟨[0], [0]⟩)]⟩,
    [(0, 0), (1, 10), (7, 70)], 0⟩, _, _, by decide, rfl, by decide, by decide, ?_⟩
  intro h
  have := Reach.closed (S := fun x => x = 0 ∨ x = 1) ?_ (.inl rfl) h
  · simp at this
  · rintro a b (rfl | rfl) e
    · right
      simpa [Graph.Edge, Graph.children, Graph.get, List.lookup] using e
    · left
      simpa [Graph.Edge, Graph.children, Graph.get, List.lookup] using e

example : ∃ (c c' : Cfg Nat) (u : List Nat),
    run [.connect 0 1, .connect 1 2, .connect 3 1, .connect 4 3, .connect 3 4] = some c.graph ∧
    c.findAndPopUnreachable 10 = some (c', u) ∧ u = [3, 4] ∧ c'.graph.labelsSorted = [0, 1, 2] ∧
    c'.bblocks = [(0, 0), (1, 1), (2, 2)] :=
  ⟨⟨⟨[(0, ⟨[1], []⟩), (1, ⟨[2], [0, 3]⟩), (2, ⟨[], [1]⟩), (3, ⟨[1, 4], [4]⟩), (4, ⟨[3], [3]⟩)]⟩,
    [(0, 0), (1, 1), (2, 2), (3, 3), (4, 4)], 0⟩, _, _, by decide, rfl, rfl, by decide, by decide⟩

/-! ## C59 -/

/-- **C59.**  The postorder lists exactly the nodes the entry can reach, each once, the entry last;
every other node is preceded on some path from the entry by a node that comes later in the list; and a
successor that does not come earlier than its predecessor can reach it again, so that on an acyclic part
the reverse postorder is a topological order. -/
theorem C59_postorder (ops : List Op) (g : Graph) (h : run ops = some g) (entry fuel : Nat)
    (hf : g.labels.length + 2 ≤ fuel) :
    ∃ po, g.calculatePostorder fuel entry = some po ∧ po.Nodup ∧
      (∀ x, x ∈ po ↔ Reach g.Edge entry x) ∧ (∃ l, po = l ++ [entry]) ∧
      (∀ l₁ x l₂, po = l₁ ++ x :: l₂ →
        (x = entry ∨ ∃ p ∈ l₂, g.Edge p x) ∧
        (∀ c, g.Edge x c → c ∈ l₁ ∨ Reach g.Edge c x)) := by
  have w := ((C26_history ops).2 g h).wf
  obtain ⟨po, e, hp⟩ := postorder_spec (nbrs := g.childrenSorted) (U := entry :: g.labels)
    (fun x _ c hc => List.mem_cons_of_mem _ (w.child_label (mem_sortLabels.1 hc)))
    (entry := entry) (fuel := fuel) (by simp) (by simpa using hf)
  have hE : (fun a b => b ∈ g.childrenSorted a) = g.Edge := by
    funext a b
    simp only [Graph.childrenSorted, mem_sortLabels, Graph.Edge]
  refine ⟨po, e, hp.nodup, ?_, hp.last, ?_⟩
  · intro x
    rw [hp.mem, hE]
  · have hlater : ∀ (l₁ : List Nat) {l₂ : List Nat} {x : Nat},
        Later g.childrenSorted (fun x => x = entry) (l₁ ++ x :: l₂) →
        x = entry ∨ ∃ p ∈ l₂, g.Edge p x := by
      intro l₁
      induction l₁ with
      | nil =>
        intro l₂ x h
        rcases h.1 with h | ⟨p, hp, h⟩
        · exact .inl h
        · exact .inr ⟨p, hp, mem_sortLabels.1 h⟩
      | cons y l₁ ih => exact fun h => ih h.2
    have htopo : ∀ (l₁ pre : List Nat) {l₂ : List Nat} {x : Nat},
        Topo g.childrenSorted (fun _ => False) pre (l₁ ++ x :: l₂) →
        ∀ c, g.Edge x c → c ∈ pre ++ l₁ ∨ Reach g.Edge c x := by
      intro l₁
      induction l₁ with
      | nil =>
        intro pre l₂ x h c hc
        rcases h.1 c (mem_sortLabels.2 hc) with h | h | h
        · exact absurd h id
        · exact .inl (by simpa using h)
        · rw [hE] at h
          exact .inr h
      | cons y l₁ ih =>
        intro pre l₂ x h c hc
        have := ih (pre ++ [y]) h.2 c hc
        simpa using this
    intro l₁ x l₂ he
    subst he
    exact ⟨hlater l₁ hp.later, by simpa using htopo l₁ [] hp.topo⟩

example : ∃ g, run [.connect 0 2, .connect 0 1, .connect 1 3, .connect 2 3, .connect 3 1, .connect 9 3]
      = some g ∧ g.calculatePostorder 10 0 = some [3, 1, 2, 0] ∧ g.labels.length + 2 ≤ 10 :=
  ⟨_, rfl, by decide, by decide⟩

end Verif.Graph
