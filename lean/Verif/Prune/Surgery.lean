import Verif.Prune.Model
import Verif.Ssa.BranchProof
/-!
# What removing a block does to the graph and the blocks
-/

namespace Verif.Prune

open Verif.Il Verif.Graph Verif.Opt Verif.Ssa

/-! ## The graph -/

/-- The graph has a history. -/
def Hist (g : Graph) : Prop := ∃ ops, Graph.run ops = some g

theorem Hist.wf {g : Graph} (h : Hist g) : WF g := by
  obtain ⟨ops, h⟩ := h
  exact ((C26_history ops).2 g h).wf

theorem Hist.apply {g g' : Graph} (h : Hist g) {op : Op} (h' : g.apply op = some g') : Hist g' := by
  obtain ⟨ops, h⟩ := h
  exact ⟨_, run_snoc h h'⟩

theorem Hist.parent {g : Graph} (h : Hist g) {a b : Nat} : a ∈ g.parents b ↔ g.Edge a b := (h.wf.sym a b).symm

theorem Hist.left {g : Graph} {a b : Nat} (e : g.Edge a b) : a ∈ g.labels := mem_labels_of_child e

theorem Hist.right {g : Graph} (h : Hist g) {a b : Nat} (e : g.Edge a b) : b ∈ g.labels := h.wf.child_label e

theorem connect_edge {g : Graph} {p c a b : Nat} : (g.connect p c).Edge a b ↔ g.Edge a b ∨ (a = p ∧ b = c) := by
  simp only [Graph.Edge, children_connect]
  by_cases h : a = p
  · subst h; simp [mem_setInsert]
  · simp [h]

theorem disc {g : Graph} (h : Hist g) {p c : Nat} (hp : p ∈ g.labels) (hc : c ∈ g.labels) :
    ∃ g', g.disconnect p c = some g' ∧ Hist g' ∧ g'.labels = g.labels ∧
      ∀ a b, g'.Edge a b ↔ g.Edge a b ∧ ¬ (a = p ∧ b = c) := by
  obtain ⟨g', e, -⟩ := disconnect_eq hp hc
  obtain ⟨-, -, h2, h3⟩ := disconnect_wf h.wf e
  exact ⟨g', e, h.apply (op := .disconnect p c) e, h2, h3⟩

theorem connects {c : Nat} : ∀ {ps : List Nat} {g : Graph}, Hist g → c ∈ g.labels → (∀ p ∈ ps, p ∈ g.labels) →
    Hist (ps.foldl (fun g p => g.connect p c) g) ∧
    (∀ x, x ∈ (ps.foldl (fun g p => g.connect p c) g).labels ↔ x ∈ g.labels) ∧
    ∀ a b, (ps.foldl (fun g p => g.connect p c) g).Edge a b ↔ g.Edge a b ∨ (a ∈ ps ∧ b = c)
  | [], g, h, _, _ => ⟨h, by simp, by simp⟩
  | p :: ps, g, h, hc, hp => by
    obtain ⟨h1, h2, h3⟩ := connects (c := c) (ps := ps) (g := g.connect p c)
      (h.apply (op := .connect p c) rfl) (mem_labels_connect.2 (.inl hc))
      (fun q hq => mem_labels_connect.2 (.inl (hp q (by simp [hq]))))
    refine ⟨h1, ?_, ?_⟩
    · intro x
      rw [List.foldl_cons, h2, mem_labels_connect]
      refine ⟨?_, .inl⟩
      rintro (h | rfl | rfl)
      · exact h
      · exact hp _ (by simp)
      · exact hc
    · intro a b
      rw [List.foldl_cons, h3, connect_edge]
      simp only [List.mem_cons]
      constructor
      · rintro ((h | ⟨rfl, rfl⟩) | ⟨h, rfl⟩)
        · exact .inl h
        · exact .inr ⟨.inl rfl, rfl⟩
        · exact .inr ⟨.inr h, rfl⟩
      · rintro (h | ⟨rfl | h, rfl⟩)
        · exact .inl (.inl h)
        · exact .inl (.inr ⟨rfl, rfl⟩)
        · exact .inr ⟨h, rfl⟩

theorem rewire_children {ps : List Nat} {cur : Nat} (hcp : cur ∉ ps) : ∀ {cs : List Nat} {g : Graph}, Hist g →
    cur ∈ g.labels → (∀ p ∈ ps, p ∈ g.labels) → (∀ c ∈ cs, c ∈ g.labels) → cs.Nodup →
    ∃ g', cs.foldlM (fun (g : Graph) c => do
        let g ← g.disconnect cur c
        some (ps.foldl (fun g p => g.connect p c) g)) g = some g' ∧ Hist g' ∧
      (∀ x, x ∈ g'.labels ↔ x ∈ g.labels) ∧
      ∀ a b, g'.Edge a b ↔ (g.Edge a b ∧ ¬ (a = cur ∧ b ∈ cs)) ∨ (a ∈ ps ∧ b ∈ cs)
  | [], g, h, _, _, _, _ => ⟨g, rfl, h, by simp, by simp⟩
  | c :: cs, g, h, h1, h2, h3, h4 => by
    obtain ⟨g1, e1, i1, l1, d1⟩ := disc h h1 (h3 c (by simp))
    obtain ⟨i2, l2, d2⟩ := connects (c := c) (ps := ps) i1 (by rw [l1]; exact h3 c (by simp)) (by rw [l1]; exact h2)
    generalize hg2 : ps.foldl (fun g p => g.connect p c) g1 = g2 at i2 l2 d2
    obtain ⟨g3, e3, i3, l3, d3⟩ := rewire_children hcp (cs := cs) (g := g2) i2 (by rw [l2, l1]; exact h1)
      (fun p hp => by rw [l2, l1]; exact h2 p hp) (fun x hx => by rw [l2, l1]; exact h3 x (by simp [hx]))
      (List.nodup_cons.1 h4).2
    refine ⟨g3, ?_, i3, ?_, ?_⟩
    · rw [List.foldlM_cons, e1]
      simp only [Option.bind_eq_bind, Option.bind_some, hg2]
      exact e3
    · intro x; rw [l3, l2, l1]
    · intro a b
      have hc := (List.nodup_cons.1 h4).1
      rw [d3, d2, d1]
      simp only [List.mem_cons]
      constructor
      · rintro (⟨⟨h, h'⟩ | ⟨h, rfl⟩, h''⟩ | ⟨h, h'⟩)
        · refine .inl ⟨h, ?_⟩
          rintro ⟨e, h3⟩
          rcases h3 with h3 | h3
          · exact h' ⟨e, h3⟩
          · exact h'' ⟨e, h3⟩
        · exact .inr ⟨h, .inl rfl⟩
        · exact .inr ⟨h, .inr h'⟩
      · rintro (⟨h, h'⟩ | ⟨h, rfl | h'⟩)
        · exact .inl ⟨.inl ⟨h, fun e => h' ⟨e.1, .inl e.2⟩⟩, fun e => h' ⟨e.1, .inr e.2⟩⟩
        · refine .inl ⟨.inr ⟨h, rfl⟩, ?_⟩
          rintro ⟨rfl, -⟩
          exact hcp h
        · exact .inr ⟨h, h'⟩

theorem rewire_parents {cur : Nat} : ∀ {ps : List Nat} {g : Graph}, Hist g →
    cur ∈ g.labels → (∀ p ∈ ps, p ∈ g.labels) →
    ∃ g', ps.foldlM (fun (g : Graph) p => g.disconnect p cur) g = some g' ∧ Hist g' ∧
      g'.labels = g.labels ∧ ∀ a b, g'.Edge a b ↔ g.Edge a b ∧ ¬ (a ∈ ps ∧ b = cur)
  | [], g, h, _, _ => ⟨g, rfl, h, rfl, by simp⟩
  | p :: ps, g, h, h1, h2 => by
    obtain ⟨g1, e1, i1, l1, d1⟩ := disc h (h2 p (by simp)) h1
    obtain ⟨g3, e3, i3, l3, d3⟩ := rewire_parents (ps := ps) (g := g1) i1 (by rw [l1]; exact h1)
      (fun q hq => by rw [l1]; exact h2 q (by simp [hq]))
    refine ⟨g3, by rw [List.foldlM_cons, e1]; exact e3, i3, by rw [l3, l1], ?_⟩
    intro a b
    rw [d3, d1]
    simp only [List.mem_cons]
    constructor
    · rintro ⟨⟨h, h'⟩, h''⟩
      refine ⟨h, ?_⟩
      rintro ⟨h3 | h3, e⟩
      · exact h' ⟨h3, e⟩
      · exact h'' ⟨h3, e⟩
    · rintro ⟨h, h'⟩
      exact ⟨⟨h, fun e => h' ⟨.inl e.1, e.2⟩⟩, fun e => h' ⟨.inr e.1, e.2⟩⟩

/-- The node is cut out, with edges from its parents to its children. -/
theorem rewire_ok {g : Graph} (h : Hist g) {cur : Nat} (hc : cur ∈ g.labels) (hl : ¬ g.Edge cur cur) :
    ∃ g', rewire (g.parentsSorted cur) (g.childrenSorted cur) cur g = some g' ∧ Hist g' ∧
      (∀ x, x ∈ g'.labels ↔ x ∈ g.labels) ∧ g'.children cur = [] ∧ g'.parents cur = [] ∧
      ∀ a b, g'.Edge a b ↔ a ≠ cur ∧ b ≠ cur ∧ (g.Edge a b ∨ (g.Edge a cur ∧ g.Edge cur b)) := by
  have mp : ∀ x, x ∈ g.parentsSorted cur ↔ g.Edge x cur := fun x => by
    rw [Graph.parentsSorted, mem_sortLabels, h.parent]
  have mc : ∀ x, x ∈ g.childrenSorted cur ↔ g.Edge cur x := fun x => by
    rw [Graph.childrenSorted, mem_sortLabels]; rfl
  obtain ⟨g1, e1, i1, l1, d1⟩ := rewire_children (ps := g.parentsSorted cur) (cur := cur)
    (fun h => hl ((mp _).1 h)) (cs := g.childrenSorted cur) h hc
    (fun p hp => Hist.left ((mp p).1 hp)) (fun p hp => h.right ((mc p).1 hp))
    (sortLabels_perm.nodup_iff.2 (h.wf.ncs cur))
  obtain ⟨g2, e2, i2, l2, d2⟩ := rewire_parents (ps := g.parentsSorted cur) (cur := cur) i1 ((l1 _).2 hc)
    (fun p hp => (l1 _).2 (Hist.left ((mp p).1 hp)))
  have key : ∀ a b, g2.Edge a b ↔ a ≠ cur ∧ b ≠ cur ∧ (g.Edge a b ∨ (g.Edge a cur ∧ g.Edge cur b)) := by
    intro a b
    rw [d2, d1, mp, mc]
    constructor
    · rintro ⟨⟨h1, h2⟩ | ⟨h1, h2⟩, h3⟩
      · refine ⟨?_, ?_, .inl h1⟩
        · rintro rfl; exact h2 ⟨rfl, h1⟩
        · rintro rfl; exact h3 ⟨h1, rfl⟩
      · refine ⟨?_, ?_, .inr ⟨h1, h2⟩⟩
        · rintro rfl; exact hl h1
        · rintro rfl; exact hl h2
    · rintro ⟨h1, h2, h3 | ⟨h3, h4⟩⟩
      · exact ⟨.inl ⟨h3, fun e => h1 e.1⟩, fun e => h2 e.2⟩
      · exact ⟨.inr ⟨h3, h4⟩, fun e => h2 e.2⟩
  refine ⟨g2, ?_, i2, fun x => by rw [l2, l1], ?_, ?_, key⟩
  · rw [rewire, e1]
    exact e2
  · refine List.eq_nil_iff_forall_not_mem.2 (fun x hx => ?_)
    exact ((key cur x).1 hx).1 rfl
  · refine List.eq_nil_iff_forall_not_mem.2 (fun x hx => ?_)
    exact ((key x cur).1 (i2.parent.1 hx)).2.1 rfl

/-! ## The blocks -/

theorem block_removed {bs bs' : List (Nat × List Inst)} {l : Nat} (h : removeBlock bs l = some bs') :
    bs'.map (·.1) = (bs.map (·.1)).filter (fun x => x != l) ∧
      ∀ x, bs'.lookup x = if x = l then none else bs.lookup x := by
  simp only [removeBlock] at h
  split at h
  · obtain rfl := Option.some.inj h
    refine ⟨by rw [List.filter_map]; rfl, fun x => ?_⟩
    have := Verif.Ssa.lookup_filter (u := [l]) (bs := bs) x
    have hf : (fun e : Nat × List Inst => e.1 != l) = fun e => !([l].contains e.1) := by
      funext e
      simp [bne]
      rfl
    rw [hf, this]
    simp
  · cases h

/-- Popping a node without edges. -/
theorem pop_ok {c : Cfg} (h : Hist c.graph) {l : Nat} (hl : l ∈ c.graph.labels) (hc : c.graph.children l = [])
    (hp : c.graph.parents l = []) (hb : (Cfg.block c l).isSome) :
    ∃ c', Graph.Cfg.pop c l = some c' ∧ Hist c'.graph ∧ c'.entry = c.entry ∧
      (∀ x, x ∈ c'.graph.labels ↔ x ∈ c.graph.labels ∧ x ≠ l) ∧ (∀ a b, c'.graph.Edge a b ↔ c.graph.Edge a b) ∧
      c'.bblocks.map (·.1) = (c.bblocks.map (·.1)).filter (fun x => x != l) ∧
      ∀ x, Cfg.block c' x = if x = l then none else Cfg.block c x := by
  have e1 := pop_eq hl hc hp
  have e2 : removeBlock c.bblocks l = some (c.bblocks.filter (fun e => e.1 != l)) := by
    simp only [removeBlock]
    exact if_pos hb
  obtain ⟨h1, h2⟩ := block_removed e2
  refine ⟨{ c with graph := c.graph.erase l, bblocks := c.bblocks.filter (fun e => e.1 != l) }, ?_,
    h.apply (op := .pop l) e1, rfl, ?_, ?_, h1, h2⟩
  · simp only [Graph.Cfg.pop, if_pos (contains_iff.2 hl), e1, e2]
    rfl
  · intro x; exact mem_labels_erase
  · intro a b
    simp only [Graph.Edge, children_erase]
    split
    · rename_i e; subst e; simp [hc]
    · rfl

theorem alter_ok {f : List Inst → Option (List Inst)} {c : Cfg} {l : Nat} {is js : List Inst}
    (h : Cfg.block c l = some is) (hf : f is = some js) :
    alterBlock f c l = some (setBlock c l js) := by
  simp [alterBlock, h, hf]

theorem keys_setBlock {c : Cfg} {l : Nat} {js : List Inst} :
    (setBlock c l js).bblocks.map (·.1) = c.bblocks.map (·.1) := by
  simp only [setBlock, List.map_map]
  refine List.map_congr_left (fun e _ => ?_)
  simp only [Function.comp]
  split
  · rename_i h; simp [h]
  · rfl

theorem alters_ok {f : List Inst → Option (List Inst)} {F : List Inst → List Inst} : ∀ {ls : List Nat} {c : Cfg},
    ls.Nodup → (∀ l ∈ ls, ∃ is, Cfg.block c l = some is ∧ f is = some (F is)) →
    ∃ c', ls.foldlM (alterBlock f) c = some c' ∧ c'.graph = c.graph ∧ c'.entry = c.entry ∧
      c'.bblocks.map (·.1) = c.bblocks.map (·.1) ∧
      ∀ x, Cfg.block c' x = if x ∈ ls then (Cfg.block c x).map F else Cfg.block c x
  | [], c, _, _ => ⟨c, rfl, rfl, rfl, rfl, by simp⟩
  | l :: ls, c, hn, h => by
    obtain ⟨hl, hn⟩ := List.nodup_cons.1 hn
    obtain ⟨is, h1, h2⟩ := h l (by simp)
    obtain ⟨c', e, h3, h4, h5, h6⟩ := alters_ok (f := f) (F := F) (ls := ls) (c := setBlock c l (F is)) hn (by
      intro x hx
      have hne : x ≠ l := by rintro rfl; exact hl hx
      obtain ⟨js, h7, h8⟩ := h x (by simp [hx])
      exact ⟨js, by rw [Ssa.block_setBlock, if_neg hne]; exact h7, h8⟩)
    refine ⟨c', by rw [List.foldlM_cons, alter_ok h1 h2]; exact e, h3, h4, h5.trans keys_setBlock, ?_⟩
    intro x
    rw [h6, Ssa.block_setBlock]
    by_cases hx : x = l
    · subst hx
      simp [hl, h1]
    · simp [hx]

end Verif.Prune
