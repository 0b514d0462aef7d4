import Verif.Flow.Spec
import Verif.Graph.Theorems
/-!
# Lemmas about the worklist engine
-/

namespace Verif.Flow

open Verif.Graph Verif.Il

/-- What flows into block `l` when every block has the state `x`. -/
def incoming {σ : Type} (a : Analysis σ) (f : FlowGraph) (boundary : Nat) (x : Nat → BlockState σ)
    (l : Nat) : σ :=
  if l = boundary then a.boundaryState
  else a.meet ((f.predecessors l).map (fun p => (p, outSide a.direction (x p))))

/-- The right-hand side of the equation of a block with contents `is`. -/
def rhs {σ : Type} (a : Analysis σ) (f : FlowGraph) (boundary : Nat) (x : Nat → BlockState σ)
    (l : Nat) (is : List Inst) : BlockState σ :=
  mkState a.direction (incoming a f boundary x l) (a.applyBlock l is (incoming a f boundary x l))

/-- The dataflow equation of block `l` holds for the assignment `x`. -/
def Equation {σ : Type} (a : Analysis σ) (f : FlowGraph) (boundary : Nat) (x : Nat → BlockState σ)
    (l : Nat) : Prop :=
  ∃ is : List Inst, f.block l = some is ∧ x l = rhs a f boundary x l is

theorem mem_dedup {x : Nat} {xs : List Nat} : x ∈ dedup xs ↔ x ∈ xs := by
  simp [dedup, mem_setExtend]

theorem nodup_dedup {xs : List Nat} : (dedup xs).Nodup := nodup_setExtend List.nodup_nil

theorem nodup_sortLabels {xs : List Nat} (h : xs.Nodup) : (sortLabels xs).Nodup :=
  (sortLabels_perm.nodup_iff).2 h

theorem mem_labels {f : FlowGraph} {l : Nat} : l ∈ f.labels ↔
    l ∈ f.cfg.graph.labels ∨ l ∈ f.cfg.bblocks.map (·.1) ∨ f.virtualExitLabel = some l := by
  unfold FlowGraph.labels FlowGraph.virtualExitLabel
  rw [mem_sortLabels, mem_dedup, List.mem_append, List.mem_append, or_assoc]
  simp only [Graph.labelsSorted, mem_sortLabels]
  cases f.virtualExit with
  | none => simp
  | some e => simp [eq_comm]

theorem nodup_labels {f : FlowGraph} : f.labels.Nodup := nodup_sortLabels nodup_dedup

theorem node_iff {f : FlowGraph} {l : Nat} : l ∈ f.labels ↔ Node f l := by
  rw [mem_labels]
  unfold Node FlowGraph.virtualExitLabel
  simp only [List.mem_map, Prod.exists, exists_and_right, exists_eq_right, Option.map_eq_some_iff]

theorem Good.wf {f : FlowGraph} {b : Nat} (g : Good f b) : WF f.cfg.graph := by
  obtain ⟨ops, h⟩ := g.history
  exact ((C26_history ops).2 _ h).wf

theorem Good.sym {f : FlowGraph} {b : Nat} (g : Good f b) (x y : Nat) :
    x ∈ f.cfg.graph.parents y ↔ y ∈ f.cfg.graph.children x := by
  obtain ⟨ops, h⟩ := g.history
  exact (C26_symmetric ops _ h x y).1

theorem mem_predecessors {f : FlowGraph} {p l : Nat} : p ∈ f.predecessors l ↔
    f.virtualExitLabel ≠ some l ∧
      ((f.direction = .forward ∧ p ∈ f.cfg.graph.parents l) ∨
       (f.direction = .backward ∧ (p ∈ f.cfg.graph.children l ∨
          ∃ e, f.virtualExit = some e ∧ l ∈ e.predecessors ∧ p = e.label))) := by
  unfold FlowGraph.predecessors
  by_cases h : some l = f.virtualExitLabel
  · simp [h]
  · rw [if_neg h, mem_sortLabels, mem_dedup]
    unfold FlowGraph.rawPredecessors
    have h' : f.virtualExitLabel ≠ some l := fun e => h e.symm
    cases hd : f.direction with
    | forward => simp [h', Graph.parentsSorted, mem_sortLabels]
    | backward =>
      simp only [h', ne_eq, not_false_eq_true, true_and, List.mem_append, Graph.childrenSorted,
        mem_sortLabels, reduceCtorEq, false_and, false_or]
      cases he : f.virtualExit with
      | none => simp
      | some e =>
        simp only [Option.some.injEq, exists_eq_left']
        by_cases hm : l ∈ e.predecessors <;> simp [hm]

theorem mem_successors {f : FlowGraph} {p l : Nat} : l ∈ f.successors p ↔
    (∃ e, f.virtualExit = some e ∧ p = e.label ∧ f.direction = .backward ∧ l ∈ e.predecessors) ∨
    (f.virtualExitLabel ≠ some p ∧
      ((f.direction = .backward ∧ l ∈ f.cfg.graph.parents p) ∨
       (f.direction = .forward ∧ (l ∈ f.cfg.graph.children p ∨
          ∃ e, f.virtualExit = some e ∧ p ∈ e.predecessors ∧ l = e.label)))) := by
  unfold FlowGraph.successors FlowGraph.virtualExitLabel
  cases he : f.virtualExit with
  | none =>
    simp only [mem_sortLabels, mem_dedup, FlowGraph.rawSuccessors, he]
    cases f.direction <;> simp [Graph.parentsSorted, Graph.childrenSorted, mem_sortLabels]
  | some e =>
    simp only [Option.map_some, Option.some.injEq, exists_eq_left']
    by_cases hp : p = e.label
    · subst hp
      cases f.direction <;> simp
    · have hp' : ¬ e.label = p := fun x => hp x.symm
      simp only [hp, ↓reduceIte, mem_sortLabels, mem_dedup, FlowGraph.rawSuccessors, he, hp', ne_eq,
        not_false_eq_true, false_and, true_and, false_or]
      cases f.direction with
      | backward => simp [Graph.parentsSorted, mem_sortLabels, hp']
      | forward =>
        by_cases hm : p ∈ e.predecessors <;> simp [Graph.childrenSorted, mem_sortLabels, hm, hp']

/-- Whoever reads from `p` is revisited when `p` changes. -/
theorem Good.succ_of_pred {f : FlowGraph} {b : Nat} (g : Good f b) {p l : Nat}
    (h : p ∈ f.predecessors l) : l ∈ f.successors p := by
  rw [mem_predecessors] at h
  rw [mem_successors]
  obtain ⟨h0, ⟨hd, hp⟩ | ⟨hd, hp | ⟨e, he, hl, rfl⟩⟩⟩ := h
  · right
    have hp' := (g.sym p l).1 hp
    refine ⟨?_, Or.inr ⟨hd, Or.inl hp'⟩⟩
    intro hx
    unfold FlowGraph.virtualExitLabel at hx
    cases he : f.virtualExit with
    | none => simp [he] at hx
    | some e =>
      simp only [he, Option.map_some, Option.some.injEq] at hx
      exact (g.exitNew e he).1 (hx ▸ mem_labels_of_child hp')
  · right
    have hp' := (g.sym l p).2 hp
    refine ⟨?_, Or.inl ⟨hd, hp'⟩⟩
    intro hx
    unfold FlowGraph.virtualExitLabel at hx
    cases he : f.virtualExit with
    | none => simp [he] at hx
    | some e =>
      simp only [he, Option.map_some, Option.some.injEq] at hx
      exact (g.exitNew e he).1 (hx ▸ mem_labels_of_parent hp')
  · exact Or.inl ⟨e, he, rfl, hd, hl⟩

theorem Good.pred_label {f : FlowGraph} {b : Nat} (g : Good f b) {p l : Nat}
    (h : p ∈ f.predecessors l) : p ∈ f.labels := by
  rw [mem_predecessors] at h
  rw [mem_labels]
  obtain ⟨h0, ⟨hd, hp⟩ | ⟨hd, hp | ⟨e, he, hl, rfl⟩⟩⟩ := h
  · exact Or.inl (mem_labels_of_child ((g.sym p l).1 hp))
  · exact Or.inl (g.wf.child_label hp)
  · exact Or.inr (Or.inr (by simp [FlowGraph.virtualExitLabel, he]))

theorem Good.succ_label {f : FlowGraph} {b : Nat} (g : Good f b) {p l : Nat}
    (h : l ∈ f.successors p) : l ∈ f.labels := by
  rw [mem_successors] at h
  rw [mem_labels]
  obtain ⟨e, he, rfl, hd, hl⟩ | ⟨h0, ⟨hd, hp⟩ | ⟨hd, hp | ⟨e, he, hl, rfl⟩⟩⟩ := h
  · exact Or.inl ((g.exitNew e he).2.2 l hl)
  · exact Or.inl (mem_labels_of_child ((g.sym l p).1 hp))
  · exact Or.inl (g.wf.child_label hp)
  · exact Or.inr (Or.inr (by simp [FlowGraph.virtualExitLabel, he]))

theorem lookup_some_of_mem {β : Type} {k : Nat} : ∀ {l : List (Nat × β)}, k ∈ l.map (·.1) →
    ∃ v, l.lookup k = some v
  | [], h => by simp at h
  | (a, v) :: l, h => by
    by_cases e : k = a
    · subst e; exact ⟨v, by simp⟩
    · have : k ∈ l.map (·.1) := by
        simp only [List.map_cons, List.mem_cons] at h
        exact h.resolve_left e
      obtain ⟨w, hw⟩ := lookup_some_of_mem this
      refine ⟨w, ?_⟩
      have e' : (k == a) = false := by simp [e]
      simp only [List.lookup_cons, e', hw]

theorem Good.block {f : FlowGraph} {b : Nat} (g : Good f b) {l : Nat} (h : l ∈ f.labels) :
    ∃ is, f.block l = some is := by
  unfold FlowGraph.block
  by_cases he : some l = f.virtualExitLabel
  · exact ⟨[], by simp [he]⟩
  · rw [if_neg he]
    rw [mem_labels] at h
    obtain h | h | h := h
    · exact g.blocks l h
    · exact lookup_some_of_mem h
    · exact absurd h.symm he

/-! ## The map of states -/

section maps
variable {σ : Type}

theorem lookup_setBlock {b : Blocks σ} {l m : Nat} {s : BlockState σ} :
    (setBlock b l s).lookup m = if m = l then (b.lookup m).map (fun _ => s) else b.lookup m := by
  induction b with
  | nil => simp [setBlock]
  | cons e es ih =>
    obtain ⟨k, v⟩ := e
    unfold setBlock at ih ⊢
    simp only [List.map_cons]
    by_cases hk : k = l
    · subst hk
      simp only [beq_self_eq_true, ↓reduceIte, List.lookup_cons]
      by_cases hm : m = k
      · subst hm; simp
      · have hm' : (m == k) = false := by simp [hm]
        simp only [hm', hm, ↓reduceIte] at ih ⊢
        exact ih
    · have hk' : (k == l) = false := by simp [hk]
      simp only [hk', Bool.false_eq_true, ↓reduceIte, List.lookup_cons]
      by_cases hm : m = k
      · subst hm; simp [hk]
      · have hm' : (m == k) = false := by simp [hm]
        simp only [hm']
        exact ih

theorem keys_setBlock {b : Blocks σ} {l : Nat} {s : BlockState σ} :
    (setBlock b l s).map (·.1) = b.map (·.1) := by
  simp only [setBlock, List.map_map]
  apply List.map_congr_left
  intro e _
  simp only [Function.comp_apply]
  split <;> rfl

theorem at_setBlock {bot : σ} {b : Blocks σ} {l m : Nat} {s : BlockState σ} (hl : l ∈ b.map (·.1)) :
    at' bot (setBlock b l s) m = if m = l then s else at' bot b m := by
  unfold at'
  rw [lookup_setBlock]
  by_cases h : m = l
  · subst h
    obtain ⟨v, hv⟩ := lookup_some_of_mem hl
    simp [hv]
  · simp [h]

theorem inputs_eq {d : Direction} {bot : σ} {b : Blocks σ} : ∀ {ps : List Nat},
    (∀ p ∈ ps, p ∈ b.map (·.1)) → inputs d b ps = some (ps.map (fun p => (p, outSide d (at' bot b p))))
  | [], _ => rfl
  | p :: ps, h => by
    obtain ⟨v, hv⟩ := lookup_some_of_mem (h p (by simp))
    have ih := inputs_eq (d := d) (bot := bot) (b := b) (ps := ps) (fun q hq => h q (by simp [hq]))
    simp [inputs, hv, ih, at']

theorem newState_eq {a : Analysis σ} {f : FlowGraph} {bd : Nat} {b : Blocks σ} {l : Nat}
    (g : Good f bd) (hk : b.map (·.1) = f.labels) {is : List Inst} (hb : f.block l = some is) :
    newState a f bd b l = some (rhs a f bd (at' a.bottom b) l is) := by
  unfold newState rhs incoming
  by_cases h : l = bd
  · subst h
    simp [hb]
  · rw [inputs_eq (bot := a.bottom) (fun p hp => hk ▸ g.pred_label hp)]
    simp [h, hb]

end maps

/-! ## The loop -/

section engine
variable {σ : Type}

/-- The right-hand side only depends on the predecessors. -/
theorem rhs_congr {a : Analysis σ} {f : FlowGraph} {bd : Nat} {x y : Nat → BlockState σ} {l : Nat}
    {is : List Inst} (h : ∀ p ∈ f.predecessors l, x p = y p) :
    rhs a f bd x l is = rhs a f bd y l is := by
  have : incoming a f bd x l = incoming a f bd y l := by
    unfold incoming
    by_cases hb : l = bd
    · simp [hb]
    · simp only [hb, ↓reduceIte]
      congr 1
      apply List.map_congr_left
      intro p hp
      rw [h p hp]
  unfold rhs
  rw [this]

/-- What a label not waiting in the worklist satisfies. -/
def Settled (a : Analysis σ) (f : FlowGraph) (bd : Nat) (x : Nat → BlockState σ) (l : Nat) : Prop :=
  Equation a f bd x l ∨
  (l ≠ bd ∧ x l = ⟨a.bottom, a.bottom⟩ ∧ ∀ p ∈ f.predecessors l, x p = ⟨a.bottom, a.bottom⟩)

theorem settled_congr {a : Analysis σ} {f : FlowGraph} {bd : Nat} {x y : Nat → BlockState σ} {l : Nat}
    (h0 : x l = y l) (h : ∀ p ∈ f.predecessors l, x p = y p) (s : Settled a f bd x l) :
    Settled a f bd y l := by
  obtain ⟨is, hb, e⟩ | ⟨h1, h2, h3⟩ := s
  · exact Or.inl ⟨is, hb, by rw [← h0, e, rhs_congr h]⟩
  · exact Or.inr ⟨h1, by rw [← h0, h2], fun p hp => by rw [← h p hp, h3 p hp]⟩

theorem loop_settled [DecidableEq σ] {a : Analysis σ} {f : FlowGraph} {bd : Nat} (g : Good f bd) :
    ∀ (fuel : Nat) (b : Blocks σ) (wl : List Nat) (r : Blocks σ), b.map (·.1) = f.labels →
    (∀ l ∈ wl, l ∈ f.labels) → (∀ l ∈ f.labels, l ∉ wl → Settled a f bd (at' a.bottom b) l) →
    loop a f bd fuel b wl = some r →
    r.map (·.1) = f.labels ∧ ∀ l ∈ f.labels, Settled a f bd (at' a.bottom r) l := by
  intro fuel
  induction fuel with
  | zero =>
    intro b wl r hk hw hs h
    cases wl with
    | nil =>
      simp only [loop, Option.some.injEq] at h
      subst h
      exact ⟨hk, fun l hl => hs l hl (by simp)⟩
    | cons l wl => simp [loop] at h
  | succ fuel ih =>
    intro b wl r hk hw hs h
    cases wl with
    | nil =>
      simp only [loop, Option.some.injEq] at h
      subst h
      exact ⟨hk, fun l hl => hs l hl (by simp)⟩
    | cons l wl =>
      have hl : l ∈ f.labels := hw l (by simp)
      obtain ⟨is, hb⟩ := g.block hl
      have hlk : l ∈ b.map (·.1) := hk ▸ hl
      obtain ⟨old, hold⟩ := lookup_some_of_mem hlk
      rw [loop, newState_eq g hk hb] at h
      simp only [hold] at h
      have hat : at' a.bottom b l = old := by simp [at', hold]
      split at h
      · rename_i heq
        refine ih b wl r hk (fun m hm => hw m (by simp [hm])) ?_ h
        intro m hm hmw
        by_cases e : m = l
        · subst e
          exact Or.inl ⟨is, hb, by rw [hat, heq]⟩
        · exact hs m hm (by simp [e, hmw])
      · refine ih _ _ r (by rw [keys_setBlock, hk]) ?_ ?_ h
        · intro m hm
          rw [mem_setExtend] at hm
          obtain hm | hm := hm
          · exact hw m (by simp [hm])
          · exact g.succ_label hm
        · intro m hm hmw
          rw [mem_setExtend, not_or] at hmw
          have hnp : l ∉ f.predecessors m := fun hp => hmw.2 (g.succ_of_pred hp)
          have hpe : ∀ p ∈ f.predecessors m,
              at' a.bottom b p = at' a.bottom (setBlock b l (rhs a f bd (at' a.bottom b) l is)) p := by
            intro p hp
            rw [at_setBlock hlk, if_neg (fun e => hnp (by rw [← e]; exact hp))]
          by_cases e : m = l
          · subst e
            refine Or.inl ⟨is, hb, ?_⟩
            rw [at_setBlock hlk, if_pos rfl]
            exact rhs_congr hpe
          · refine settled_congr ?_ hpe (hs m hm (by simp [e, hmw.1]))
            rw [at_setBlock hlk, if_neg e]

theorem at_init {a : Analysis σ} {f : FlowGraph} {l : Nat} :
    at' a.bottom (initBlocks a f) l = ⟨a.bottom, a.bottom⟩ := by
  unfold at' initBlocks
  generalize f.labels = ls
  induction ls with
  | nil => simp
  | cons m ls ih =>
    rw [List.map_cons, List.lookup_cons]
    cases hm : (l == m) with
    | true => simp
    | false => simpa [hm] using ih

theorem keys_init {a : Analysis σ} {f : FlowGraph} : (initBlocks a f).map (·.1) = f.labels := by
  simp [initBlocks, Function.comp_def]

theorem run_settled [DecidableEq σ] {a : Analysis σ} {f : FlowGraph} {bd : Nat} (g : Good f bd) {fuel : Nat}
    {r : Blocks σ} (h : runDataflow a f bd fuel = some r) :
    r.map (·.1) = f.labels ∧ ∀ l ∈ f.labels, Settled a f bd (at' a.bottom r) l := by
  refine loop_settled g fuel _ [bd] r keys_init ?_ ?_ h
  · intro l hl
    simp only [List.mem_singleton] at hl
    exact hl ▸ node_iff.2 g.boundary
  · intro l _ hlw
    refine Or.inr ⟨by simpa using hlw, at_init, fun p _ => at_init⟩

end engine

/-! ## The equations of the specification -/

theorem flows_iff {f : FlowGraph} {p l : Nat} : p ∈ f.predecessors l ↔ Flows f p l := by
  rw [mem_predecessors]
  unfold Flows FlowGraph.virtualExitLabel
  have : (f.virtualExit.map (·.label) ≠ some l) ↔ ∀ e : VirtualExit, f.virtualExit = some e → e.label ≠ l := by
    simp only [ne_eq, Option.map_eq_some_iff, not_exists, not_and]
  rw [this]
  simp only [and_or_left]

theorem pairwise_lt_of {l : List Nat} (h : l.Nodup) (s : l.Pairwise (fun a b : Nat => a ≤ b)) :
    l.Pairwise (fun a b : Nat => a < b) :=
  (s.and h).imp (fun h => Nat.lt_of_le_of_ne h.1 h.2)

theorem sources_predecessors {f : FlowGraph} {l : Nat} : Sources f l (f.predecessors l) := by
  refine ⟨?_, fun p => flows_iff⟩
  unfold FlowGraph.predecessors
  split
  · exact List.Pairwise.nil
  · exact pairwise_lt_of (nodup_sortLabels nodup_dedup) sortLabels_le

theorem sources_unique {f : FlowGraph} {l : Nat} {ps : List Nat} (h : Sources f l ps) : ps = f.predecessors l := by
  have h' := sources_predecessors (f := f) (l := l)
  refine List.Perm.eq_of_pairwise (le := fun a b : Nat => a < b) ?_ h.1 h'.1 ?_
  · intro a b _ _ h1 h2
    omega
  · rw [List.perm_ext_iff_of_nodup (h.1.imp (fun h => Nat.ne_of_lt h)) (h'.1.imp (fun h => Nat.ne_of_lt h))]
    intro p
    rw [h.2, h'.2]

theorem contents_iff {f : FlowGraph} {l : Nat} {is : List Inst} : f.block l = some is ↔ Contents f l is := by
  unfold FlowGraph.block Contents FlowGraph.virtualExitLabel
  cases f.virtualExit with
  | none => simp [Cfg.block]
  | some e =>
    simp only [Option.map_some, Option.some.injEq, Cfg.block]
    by_cases h : l = e.label
    · subst h
      simp [eq_comm]
    · rw [if_neg h]
      constructor
      · intro hb
        exact Or.inr ⟨fun e' he he' => h (by rw [← he', he]), hb⟩
      · rintro (⟨e', he, he', _⟩ | ⟨_, hb⟩)
        · exact absurd (by rw [← he', he]) h
        · exact hb

theorem applyForward_zip {σ : Type} {a : Analysis σ} {l : Nat} : ∀ (is : List Inst) (k : Nat) (s : σ),
    applyForward (a.applyInst l) k is s =
      (is.zipIdx k).foldl (fun (s : σ) (e : Inst × Nat) => a.applyInst l e.2 e.1 s) s
  | [], _, _ => rfl
  | i :: is, k, s => by
    rw [applyForward, applyForward_zip is (k + 1), List.zipIdx_cons, List.foldl_cons]

theorem applyBackward_zip {σ : Type} {a : Analysis σ} {l : Nat} : ∀ (is : List Inst) (k : Nat) (s : σ),
    applyBackward (a.applyInst l) k is s =
      (is.zipIdx k).foldr (fun (e : Inst × Nat) (s : σ) => a.applyInst l e.2 e.1 s) s
  | [], _, _ => rfl
  | i :: is, k, s => by
    rw [applyBackward, applyBackward_zip is (k + 1), List.zipIdx_cons, List.foldr_cons]

theorem applyBlock_through {σ : Type} {a : Analysis σ} {l : Nat} {is : List Inst} {s : σ} :
    a.applyBlock l is s = through a l is s := by
  unfold Analysis.applyBlock through
  cases a.direction with
  | forward => exact applyForward_zip is 0 s
  | backward => exact applyBackward_zip is 0 s

theorem state_ext {σ : Type} {s t : BlockState σ} : s = t ↔ s.entry = t.entry ∧ s.exit = t.exit := by
  cases s
  cases t
  simp

theorem solves_iff {σ : Type} {a : Analysis σ} {f : FlowGraph} {bd : Nat} {x : Nat → BlockState σ} {l : Nat} :
    Equation a f bd x l ↔ Solves a f bd x l := by
  have key : ∀ is, x l = rhs a f bd x l is ↔ (match a.direction with
      | .forward =>
        (x l).entry = (if l = bd then a.boundaryState
          else a.meet ((f.predecessors l).map (fun p => (p, (x p).exit)))) ∧
        (x l).exit = through a l is (x l).entry
      | .backward =>
        (x l).exit = (if l = bd then a.boundaryState
          else a.meet ((f.predecessors l).map (fun p => (p, (x p).entry)))) ∧
        (x l).entry = through a l is (x l).exit) := by
    intro is
    rw [state_ext]
    unfold rhs incoming
    simp only [applyBlock_through]
    cases a.direction with
    | forward =>
      simp only [mkState, outSide]
      constructor
      · rintro ⟨h1, h2⟩
        exact ⟨h1, by rw [h2, ← h1]⟩
      · rintro ⟨h1, h2⟩
        exact ⟨h1, by rw [h2, ← h1]⟩
    | backward =>
      simp only [mkState, outSide]
      constructor
      · rintro ⟨h1, h2⟩
        exact ⟨h2, by rw [h1, ← h2]⟩
      · rintro ⟨h1, h2⟩
        exact ⟨by rw [h2, ← h1], h1⟩
  unfold Equation Solves
  constructor
  · rintro ⟨is, h1, h2⟩
    exact ⟨is, _, contents_iff.1 h1, sources_predecessors, (key is).1 h2⟩
  · rintro ⟨is, ps, h1, h2, h3⟩
    obtain rfl := sources_unique h2
    exact ⟨is, contents_iff.2 h1, (key is).2 h3⟩

end Verif.Flow
