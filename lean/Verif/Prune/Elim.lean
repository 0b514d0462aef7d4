import Verif.Prune.Base
/-!
# Removing an empty block
-/

namespace Verif.Prune

open Verif.Il Verif.Graph Verif.Opt Verif.Ssa

/-- The node is cut out of the graph, and its block is gone. -/
structure Cut (c c' : Cfg) (cur : Nat) : Prop where
  ne : cur ≠ c.entry
  loop : ¬ c.graph.Edge cur cur
  hist : Hist c'.graph
  entry : c'.entry = c.entry
  nodes : ∀ x, x ∈ c'.graph.labels ↔ x ∈ c.graph.labels ∧ x ≠ cur
  edge : ∀ a b, c'.graph.Edge a b ↔
    a ≠ cur ∧ b ≠ cur ∧ (c.graph.Edge a b ∨ (c.graph.Edge a cur ∧ c.graph.Edge cur b))
  keys : c'.bblocks.map (·.1) = (c.bblocks.map (·.1)).filter (fun x => x != cur)

section
variable {c c' : Cfg} {cur : Nat}

theorem Cut.reach_aux (k : Cut c c' cur) {x : Nat} (h : Reach c.graph.Edge c.entry x) :
    (x ≠ cur → Reach c'.graph.Edge c'.entry x) ∧
    (x = cur → ∃ p, p ≠ cur ∧ c.graph.Edge p cur ∧ Reach c'.graph.Edge c'.entry p) := by
  induction h with
  | refl => exact ⟨fun _ => by rw [k.entry]; exact .refl, fun h => absurd h.symm k.ne⟩
  | @step b x h1 h2 ih =>
    constructor
    · intro hx
      by_cases hb : b = cur
      · obtain ⟨p, hp, h3, h4⟩ := ih.2 hb
        subst hb
        exact .step h4 ((k.edge _ _).2 ⟨hp, hx, .inr ⟨h3, h2⟩⟩)
      · exact .step (ih.1 hb) ((k.edge _ _).2 ⟨hb, hx, .inl h2⟩)
    · rintro rfl
      have hb : b ≠ x := by rintro rfl; exact k.loop h2
      exact ⟨b, hb, h2, ih.1 hb⟩

theorem Cut.reach (k : Cut c c' cur) (h : AllReachable c)
    (hb : ∀ x, (Cfg.block c' x).isSome → x ≠ cur ∧ (Cfg.block c x).isSome) : AllReachable c' := by
  constructor
  · intro l hl
    obtain ⟨h1, h2⟩ := hb l hl
    exact (k.reach_aux (h.1 l h2)).1 h1
  · intro a b e
    obtain ⟨h1, -, h2 | ⟨h2, -⟩⟩ := (k.edge a b).1 e
    · exact (k.reach_aux (h.2 a _ h2)).1 h1
    · exact (k.reach_aux (h.2 a _ h2)).1 h1

end

/-- The branch at the end goes to `s` instead of `cur`, and is dropped if it goes there in any case. -/
def turn (cur s : Nat) (is : List Inst) : List Inst :=
  match is.getLast? with
  | some i =>
    if i.t = .condGoto then
      match i.labels.map (fun l => if l = cur then s else l) with
      | t :: f :: _ =>
        if t = f then is.dropLast
        else is.dropLast ++ [{ i with labels := i.labels.map (fun l => if l = cur then s else l) }]
      | _ => is
    else is
  | none => is

theorem turn_plain {cur s : Nat} {is : List Inst} (h : ∀ i ∈ is, i.t ≠ .condGoto) : turn cur s is = is := by
  simp only [turn]
  cases hl : is.getLast? with
  | none => rfl
  | some i => simp only [if_neg (h i (List.mem_of_getLast? hl))]

theorem turn_branch {cur s t f : Nat} {is : List Inst} {i : Inst} (ht : i.t = .condGoto) (hl : i.labels = [t, f]) :
    turn cur s (is ++ [i]) =
      if (if t = cur then s else t) = (if f = cur then s else f) then is
      else is ++ [{ i with labels := [if t = cur then s else t, if f = cur then s else f] }] := by
  simp [turn, ht, hl]

/-- An empty block with at most one successor `s` is cut out.  If it has none, it is the only successor of its
predecessors. -/
structure Elim (c c' : Cfg) (cur s : Nat) (f : Inst → Inst) : Prop where
  cut : Cut c c' cur
  empty : Cfg.block c cur = some []
  child : ∀ y, c.graph.Edge cur y → y = s
  lone : ¬ c.graph.Edge cur s → ∀ x y, c.graph.Edge x cur → c.graph.Edge x y → y = cur
  block : ∀ x, Cfg.block c' x = if x = cur then none else (Cfg.block c x).map (fun is => (turn cur s is).map f)
  other : ∀ i, i.t ≠ .phi → f i = i
  phis : ∀ l k i, instAt c l k = some i → i.t = .phi → (f i).t = .phi ∧ (f i).tgts = i.tgts ∧ (f i).labels.Nodup ∧
    (f i).labels.length = (f i).args.length ∧ ∀ q a, (q, a) ∈ (f i).labels.zip (f i).args ↔
      q ≠ cur ∧ ((q, a) ∈ i.labels.zip i.args ∨ (c.graph.Edge q cur ∧ (cur, a) ∈ i.labels.zip i.args))

section
variable {c c' : Cfg} {cur s : Nat} {f : Inst → Inst}

theorem Elim.sne (h : Elim c c' cur s f) (he : c.graph.Edge cur s) : s ≠ cur := by
  rintro rfl
  exact h.cut.loop he

theorem Elim.isSome (h : Elim c c' cur s f) {x : Nat} :
    (Cfg.block c' x).isSome ↔ x ≠ cur ∧ (Cfg.block c x).isSome := by
  rw [h.block]
  split
  · rename_i e; simp [e]
  · rename_i e; simp [e]

theorem Elim.blockOf (h : Elim c c' cur s f) {x : Nat} (hx : x ≠ cur) : blockOf c' x = (turn cur s (blockOf c x)).map f := by
  simp only [Opt.blockOf, h.block, if_neg hx]
  cases Cfg.block c x with
  | none => rfl
  | some is => rfl

/-- The three fates of a block. -/
theorem Elim.cases (h : Elim c c' cur s f) (v : Inv c) {l : Nat} (hl : l ≠ cur) :
    (Opt.blockOf c' l = (Opt.blockOf c l).map f ∧ (∀ i ∈ Opt.blockOf c l, i.t = .condGoto → cur ∉ i.labels)) ∨
    ∃ is i a t e, Opt.blockOf c l = is ++ [i] ∧ i.t = .condGoto ∧ i.tgts = [] ∧ i.args = [a] ∧ i.labels = [t, e] ∧
      (∀ j ∈ is, j.t ≠ .condGoto) ∧ c.graph.Edge cur s ∧
      (∀ y, c.graph.Edge l y ↔ y = t ∨ y = e) ∧
      ((t = cur ∧ e ≠ cur) ∨ (e = cur ∧ t ≠ cur)) ∧
      (((if t = cur then s else t) = s ∧ (if e = cur then s else e) = s ∧ Opt.blockOf c' l = is.map f) ∨
      ((if t = cur then s else t) ≠ (if e = cur then s else e) ∧ Opt.blockOf c' l =
        is.map f ++ [{ i with labels := [if t = cur then s else t, if e = cur then s else e] }])) := by
  rw [h.blockOf hl]
  by_cases hp : ∀ i ∈ Opt.blockOf c l, i.t ≠ .condGoto
  · exact .inl ⟨by rw [turn_plain hp], fun i hi ht => absurd ht (hp i hi)⟩
  · have : ∃ i ∈ Opt.blockOf c l, i.t = .condGoto := by
      simpa using hp
    obtain ⟨i, hi, ht⟩ := this
    obtain ⟨k, hk⟩ := mem_instAt hi
    obtain ⟨is, a, t, f, h1, h2, h3, h4, h5, h6, h7, h8, h9⟩ := branch_shape v hk ht
    have hy : ∀ y, c.graph.Edge l y ↔ y = t ∨ y = f := by
      intro y
      refine ⟨h8 y, ?_⟩
      rintro (rfl | rfl)
      · exact h6
      · exact h7
    by_cases hc : cur ∈ i.labels
    · right
      have hcs : c.graph.Edge cur s := by
        refine Classical.byContradiction (fun hn => ?_)
        have hlc : c.graph.Edge l cur := by
          rw [h4] at hc
          exact (hy _).2 (by simpa using hc)
        have e1 := h.lone hn l t hlc h6
        have e2 := h.lone hn l f hlc h7
        exact h5 (e1.trans e2.symm)
      have ho : (t = cur ∧ f ≠ cur) ∨ (f = cur ∧ t ≠ cur) := by
        rw [h4] at hc
        simp only [List.mem_cons, List.not_mem_nil, or_false] at hc
        rcases hc with hc | hc
        · exact .inl ⟨hc.symm, fun e => h5 (hc.symm.trans e.symm)⟩
        · exact .inr ⟨hc.symm, fun e => h5 (e.trans hc)⟩
      refine ⟨is, i, a, t, f, h1, ht, h2, h3, h4, h9, hcs, hy, ho, ?_⟩
      rw [h1, turn_branch ht h4]
      by_cases he : (if t = cur then s else t) = (if f = cur then s else f)
      · refine .inl ?_
        rw [if_pos he]
        rcases ho with ⟨e1, e2⟩ | ⟨e1, e2⟩
        · rw [if_pos e1, if_neg e2] at he
          rw [if_pos e1, if_neg e2]
          exact ⟨rfl, he.symm, rfl⟩
        · rw [if_neg e2, if_pos e1] at he
          rw [if_neg e2, if_pos e1]
          exact ⟨he, rfl, rfl⟩
      · refine .inr ⟨he, ?_⟩
        rw [if_neg he, List.map_append, List.map_singleton, h.other _ (by simp [ht])]
    · left
      rw [h4] at hc
      simp only [List.mem_cons, List.not_mem_nil, or_false, not_or] at hc
      have e1 : (if t = cur then s else t) = t := if_neg (fun e => hc.1 e.symm)
      have e2 : (if f = cur then s else f) = f := if_neg (fun e => hc.2 e.symm)
      constructor
      · rw [h1, turn_branch ht h4, e1, e2, if_neg h5, ← h4]
      · intro j hj htj
        rw [h1] at hj
        rcases List.mem_append.1 hj with hj | hj
        · exact absurd htj (h9 j hj)
        · simp only [List.mem_singleton] at hj
          subst hj
          rw [h4]
          simp only [List.mem_cons, List.not_mem_nil, or_false, not_or]
          exact hc

theorem Elim.same (h : Elim c c' cur s f) {l k : Nat} {i : Inst} (e : instAt c l k = some i) :
    (f i).t = i.t ∧ (f i).tgts = i.tgts ∧ (i.t ≠ .phi → f i = i) := by
  by_cases ht : i.t = .phi
  · obtain ⟨h1, h2, -⟩ := h.phis l k i e ht
    exact ⟨h1.trans ht.symm, h2, fun h => absurd ht h⟩
  · have := h.other i ht
    exact ⟨by rw [this], by rw [this], fun _ => this⟩

theorem Elim.back (h : Elim c c' cur s f) (v : Inv c) {l k : Nat} {i' : Inst} (e : instAt c' l k = some i') :
    l ≠ cur ∧ ∃ i, instAt c l k = some i ∧ i.t = i'.t ∧ i.tgts = i'.tgts ∧ (i.t ≠ .phi → i.args = i'.args) ∧
      (i'.t ≠ .condGoto → i' = f i) := by
  have hl : l ≠ cur := by
    rintro rfl
    have := block_of_instAt e
    rw [h.block, if_pos rfl] at this
    cases this
  refine ⟨hl, ?_⟩
  have fin : ∀ i, instAt c l k = some i → f i = i' → ∃ i, instAt c l k = some i ∧ i.t = i'.t ∧ i.tgts = i'.tgts ∧
      (i.t ≠ .phi → i.args = i'.args) ∧ (i'.t ≠ .condGoto → i' = f i) := by
    intro i hi he
    obtain ⟨h1, h2, h3⟩ := h.same hi
    subst he
    exact ⟨i, hi, h1.symm, h2.symm, fun hn => by rw [h3 hn], fun _ => rfl⟩
  rcases h.cases v hl with ⟨h1, -⟩ | ⟨is, i, a, t, f, h1, h2, h3, h4, h5, h6, h7, h8, h9, ⟨-, -, h10⟩ | ⟨-, h10⟩⟩
  · rw [instAt, h1, List.getElem?_map, Option.map_eq_some_iff] at e
    obtain ⟨i, hi, he⟩ := e
    exact fin i hi he
  · rw [instAt, h10, List.getElem?_map, Option.map_eq_some_iff] at e
    obtain ⟨j, hj, he⟩ := e
    obtain ⟨hk, -⟩ := List.getElem?_eq_some_iff.1 hj
    refine fin j ?_ he
    rw [instAt, h1, List.getElem?_append_left hk, hj]
  · rw [instAt, h10] at e
    by_cases hk : k < is.length
    · rw [List.getElem?_append_left (by simpa using hk), List.getElem?_map, Option.map_eq_some_iff] at e
      obtain ⟨j, hj, he⟩ := e
      refine fin j ?_ he
      rw [instAt, h1, List.getElem?_append_left hk, hj]
    · rw [List.getElem?_append_right (by simp; omega), List.length_map] at e
      have hk0 : k - is.length = 0 := by
        obtain ⟨hlt, -⟩ := List.getElem?_eq_some_iff.1 e
        simpa using hlt
      rw [hk0] at e
      simp only [List.getElem?_cons_zero, Option.some.injEq] at e
      subst e
      refine ⟨i, ?_, rfl, rfl, fun _ => rfl, fun hn => absurd h2 hn⟩
      rw [instAt, h1, List.getElem?_append_right (by omega), hk0]
      rfl

/-- A phi of the new program. -/
theorem Elim.back_phi (h : Elim c c' cur s f) (v : Inv c) {l k : Nat} {i' : Inst} (e : instAt c' l k = some i')
    (ht : i'.t = .phi) : l ≠ cur ∧ ∃ i, instAt c l k = some i ∧ i.t = .phi ∧ i' = f i := by
  obtain ⟨hl, i, e1, e2, -, -, e5⟩ := h.back v e
  exact ⟨hl, i, e1, e2.trans ht, e5 (by rw [ht]; decide)⟩

/-- A branch of the new program. -/
theorem Elim.back_branch (h : Elim c c' cur s f) (v : Inv c) {l k : Nat} {i' : Inst} (e : instAt c' l k = some i')
    (ht : i'.t = .condGoto) : (instAt c l k = some i' ∧ cur ∉ i'.labels ∧ Opt.blockOf c' l = (Opt.blockOf c l).map f) ∨
    ∃ is i a t e, Opt.blockOf c l = is ++ [i] ∧ i.t = .condGoto ∧ i.tgts = [] ∧ i.args = [a] ∧ i.labels = [t, e] ∧
      c.graph.Edge cur s ∧ (∀ y, c.graph.Edge l y ↔ y = t ∨ y = e) ∧ ((t = cur ∧ e ≠ cur) ∨ (e = cur ∧ t ≠ cur)) ∧
      (if t = cur then s else t) ≠ (if e = cur then s else e) ∧
      i' = { i with labels := [if t = cur then s else t, if e = cur then s else e] } ∧
      Opt.blockOf c' l = is.map f ++ [i'] := by
  obtain ⟨hl, -⟩ := h.back v e
  have no : ∀ is : List Inst, (∀ j ∈ is, j.t ≠ .condGoto) → (∀ j ∈ is, j ∈ Opt.blockOf c l) → i' ∉ is.map f := by
    intro is h1 h2 hm
    obtain ⟨j, hj, rfl⟩ := List.mem_map.1 hm
    obtain ⟨k', hk'⟩ := mem_instAt (h2 j hj)
    rw [(h.same hk').1] at ht
    exact h1 j hj ht
  rcases h.cases v hl with ⟨h1, h2⟩ | ⟨is, j, a, t, e', h1, h2, h3, h4, h5, h6, h7, h8, h9, ⟨-, -, h10⟩ | ⟨h11, h10⟩⟩
  · left
    rw [instAt, h1, List.getElem?_map, Option.map_eq_some_iff] at e
    obtain ⟨j, hj, rfl⟩ := e
    have hs := h.same (i := j) hj
    rw [hs.1] at ht
    rw [hs.2.2 (by rw [ht]; decide)]
    exact ⟨hj, h2 j (List.mem_of_getElem? hj) ht, h1⟩
  · rw [instAt, h10] at e
    exact absurd (List.mem_of_getElem? e) (no is h6 (fun j hj => by rw [h1]; simp [hj]))
  · right
    rw [instAt, h10] at e
    rcases List.mem_append.1 (List.mem_of_getElem? e) with hm | hm
    · exact absurd hm (no is h6 (fun j hj => by rw [h1]; simp [hj]))
    · simp only [List.mem_singleton] at hm
      subst hm
      exact ⟨is, j, a, t, e', h1, h2, h3, h4, h5, h7, h8, h9, h11, rfl, h10⟩

theorem Elim.wf (h : Elim c c' cur s f) (v : Inv c) : WellFormed c' := by
  have wf := v.prog.wf
  refine ⟨?_, ?_, ?_, ?_, ?_, ?_, ?_, ?_⟩
  · rw [h.cut.keys]; exact wf.labels.filter _
  · rw [h.cut.entry]
    exact h.isSome.2 ⟨fun e => h.cut.ne e.symm, wf.entryBlock⟩
  · intro a b e
    obtain ⟨-, h1, h2 | ⟨-, h2⟩⟩ := (h.cut.edge a b).1 e
    · exact h.isSome.2 ⟨h1, wf.edgeBlock _ _ h2⟩
    · exact h.isSome.2 ⟨h1, wf.edgeBlock _ _ h2⟩
  · intro l k i' e
    obtain ⟨hl, i, e1, e2, e3, e4, e5⟩ := h.back v e
    by_cases ht : i'.t = .condGoto
    · rcases h.back_branch v e ht with ⟨h1, -⟩ | ⟨is, j, a, t, e', h1, h2, h3, h4, h5, h7, h8, h9, h11, rfl, h10⟩
      · exact wf.shape l k i' h1
      · simp only [Shape, h2]
        exact ⟨h3, ⟨a, h4⟩, _, _, rfl⟩
    · rw [e5 ht]
      have hs := wf.shape l k i e1
      by_cases hp : i.t = .phi
      · obtain ⟨h1, h2, h3, h4, -⟩ := h.phis l k i e1 hp
        simp only [Shape, hp] at hs
        simp only [Shape, h1, h2]
        exact ⟨hs.1, h4⟩
      · rw [h.other i hp]
        exact hs
  · intro l k i' e ht
    obtain ⟨hl, i, e1, e2, -⟩ := h.back v e
    have := wf.branchLast l k i e1 (e2.trans ht)
    rcases h.back_branch v e ht with ⟨-, -, h1⟩ | ⟨is, j, a, t, e', h1, h2, h3, h4, h5, h7, h8, h9, h11, rfl, h10⟩
    · rw [h1, List.length_map]; exact this
    · rw [h10]
      rw [h1] at this
      simpa using this
  · intro l k i' e ht y hy
    obtain ⟨hl, -⟩ := h.back v e
    rcases h.back_branch v e ht with ⟨h1, h2, -⟩ | ⟨is, j, a, t, e', h1, h2, h3, h4, h5, h7, h8, h9, h11, rfl, h10⟩
    · refine (h.cut.edge _ _).2 ⟨hl, ?_, .inl (wf.branchTo l k i' h1 ht y hy)⟩
      rintro rfl
      exact h2 hy
    · have hs := h.sne h7
      rcases h9 with ⟨rfl, hne⟩ | ⟨rfl, hne⟩
      · simp only [if_true, if_neg hne, List.mem_cons, List.not_mem_nil, or_false] at hy
        rcases hy with rfl | rfl
        · exact (h.cut.edge _ _).2 ⟨hl, hs, .inr ⟨(h8 _).2 (.inl rfl), h7⟩⟩
        · exact (h.cut.edge _ _).2 ⟨hl, hne, .inl ((h8 _).2 (.inr rfl))⟩
      · simp only [if_true, if_neg hne, List.mem_cons, List.not_mem_nil, or_false] at hy
        rcases hy with rfl | rfl
        · exact (h.cut.edge _ _).2 ⟨hl, hne, .inl ((h8 _).2 (.inl rfl))⟩
        · exact (h.cut.edge _ _).2 ⟨hl, hs, .inr ⟨(h8 _).2 (.inr rfl), h7⟩⟩
  · intro l k j i i' e ht hjk e'
    obtain ⟨hl, i0, e1, e2, -⟩ := h.back v e
    obtain ⟨-, i1, e3, e4, -⟩ := h.back v e'
    rw [← e4]
    exact wf.phiFirst l k j i0 i1 e1 (e2.trans ht) hjk e3
  · intro l k i' e ht
    obtain ⟨hl, i, e1, e2, rfl⟩ := h.back_phi v e ht
    exact (h.phis l k i e1 e2).2.2.1

theorem nophi_defines {d : Nat} {x : Nat} (hb : Opt.blockOf c d = []) : ¬ Defines c (.phis d) x := by
  rintro ⟨k, i, e, -⟩
  rw [instAt, hb] at e
  simp at e

/-- A walk to the end of a block of the new program goes on to the end of the block of the old program. -/
theorem Elim.trail_end (h : Elim c c' cur s f) (v : Inv c) {l : Nat} (hl : l ≠ cur) {ms : List Site}
    (tr : Trail c ms l (Opt.blockOf c' l).length) :
    ∃ ms2, Trail c ms2 l (Opt.blockOf c l).length ∧ ∀ d ∈ ms2, ∀ x, Defines c d x → d ∈ ms := by
  rcases h.cases v hl with ⟨h1, -⟩ | ⟨is, i, a, t, f, h1, h2, h3, h4, h5, h6, h7, h8, h9, ⟨-, -, h10⟩ | ⟨-, h10⟩⟩
  · rw [h1, List.length_map] at tr
    exact ⟨ms, tr, fun d hd _ _ => hd⟩
  · rw [h10, List.length_map] at tr
    have hlen : (Opt.blockOf c l).length = is.length + 1 := by simp [h1]
    refine ⟨_, by rw [hlen]; exact .inst tr (by omega), ?_⟩
    intro d hd x hx
    rcases List.mem_cons.1 hd with rfl | hd
    · exfalso
      refine branch_not_defines v.prog.wf ⟨l, is.length, i, rfl, ?_, h2⟩ hx
      rw [instAt, h1]
      simp
    · exact hd
  · rw [h10] at tr
    refine ⟨ms, ?_, fun d hd _ _ => hd⟩
    rw [h1]
    simpa using tr

theorem Elim.trail_ne (h : Elim c c' cur s f) {ms : List Site} {l k : Nat} (tr : Trail c' ms l k) : l ≠ cur := by
  induction tr with
  | start => rw [h.cut.entry]; exact fun e => h.cut.ne e.symm
  | inst _ _ ih => exact ih
  | jump _ he _ => exact ((h.cut.edge _ _).1 he).2.1

theorem Elim.trail (h : Elim c c' cur s f) (v : Inv c) {ms' : List Site} {l k : Nat} (tr : Trail c' ms' l k) :
    ∃ ms, Trail c ms l k ∧ ∀ d ∈ ms, ∀ x, Defines c d x → d ∈ ms' := by
  induction tr with
  | start => exact ⟨[], by rw [h.cut.entry]; exact .start, by simp⟩
  | @inst ms l k tr hk ih =>
    obtain ⟨ms0, h1, h2⟩ := ih
    have hk' : k < (Opt.blockOf c l).length := by
      have : instAt c' l k = some ((Opt.blockOf c' l)[k]) := List.getElem?_eq_getElem hk
      obtain ⟨-, i, e, -⟩ := h.back v this
      exact lt_of_instAt e
    refine ⟨_, .inst h1 hk', ?_⟩
    intro d hd x hx
    rcases List.mem_cons.1 hd with rfl | hd
    · exact List.mem_cons_self
    · exact List.mem_cons_of_mem _ (h2 d hd x hx)
  | @jump ms l y tr he ih =>
    obtain ⟨ms0, h1, h2⟩ := ih
    obtain ⟨ms1, h3, h4⟩ := h.trail_end v (h.trail_ne tr) h1
    obtain ⟨-, -, h5 | ⟨h5, h6⟩⟩ := (h.cut.edge _ _).1 he
    · refine ⟨_, .jump h3 h5, ?_⟩
      intro d hd x hx
      rcases List.mem_cons.1 hd with rfl | hd
      · exact List.mem_cons_self
      · exact List.mem_cons_of_mem _ (h2 d (h4 d hd x hx) x hx)
    · have hb : Opt.blockOf c cur = [] := blockOf_some h.empty
      have h7 := Trail.jump h3 h5
      have h8 : Trail c (.phis cur :: ms1) cur (Opt.blockOf c cur).length := by rw [hb]; exact h7
      refine ⟨_, .jump h8 h6, ?_⟩
      intro d hd x hx
      rcases List.mem_cons.1 hd with rfl | hd
      · exact List.mem_cons_self
      · rcases List.mem_cons.1 hd with rfl | hd
        · exact absurd hx (nophi_defines hb)
        · exact List.mem_cons_of_mem _ (h2 d (h4 d hd x hx) x hx)

theorem Elim.defs (h : Elim c c' cur s f) (v : Inv c) {d : Site} {x : Nat} (hd : Defines c' d x) : Defines c d x := by
  cases d with
  | inst l k =>
    obtain ⟨i', e, h1, h2⟩ := hd
    obtain ⟨-, i, e1, e2, e3, -⟩ := h.back v e
    exact ⟨i, e1, e2 ▸ h1, e3 ▸ h2⟩
  | phis l =>
    obtain ⟨k, i', e, h1, h2⟩ := hd
    obtain ⟨-, i, e1, e2, e3, -⟩ := h.back v e
    exact ⟨k, i, e1, e2 ▸ h1, e3 ▸ h2⟩

theorem Elim.ssa (h : Elim c c' cur s f) (v : Inv c) : StrictSSA c' := by
  have hcur : Opt.blockOf c cur = [] := blockOf_some h.empty
  refine ssa_map v.prog.ssa (fun l k => (l, k)) id ?_ ?_ ?_ ?_ ?_
  · intro l k i' e
    obtain ⟨-, i, e1, e2, e3, e4, -⟩ := h.back v e
    exact ⟨i, e1, e3, e2, fun hn => (e4 hn).symm⟩
  · intro l k i l2 k2 i2 _ _ e
    simpa using e
  · intro d x hd
    exact ⟨d, h.defs v hd, rfl⟩
  · intro l k i _ _ ms' tr
    exact h.trail v tr
  · intro l k i' e ht p a hpa
    obtain ⟨-, i, e1, e2, rfl⟩ := h.back_phi v e ht
    have toEnd : ∀ ms', Trail c' ms' p (Opt.blockOf c' p).length →
        ∃ ms, Trail c ms p (Opt.blockOf c p).length ∧ ∀ d ∈ ms, ∀ x, Defines c d x → d ∈ ms' := by
      intro ms' tr
      obtain ⟨ms, h1, h2⟩ := h.trail v tr
      obtain ⟨ms2, h3, h4⟩ := h.trail_end v (h.trail_ne tr) h1
      exact ⟨ms2, h3, fun d hd x hx => h2 d (h4 d hd x hx) x hx⟩
    obtain ⟨-, h1 | ⟨h1, h2⟩⟩ := ((h.phis l k i e1 e2).2.2.2.2 p a).1 hpa
    · exact ⟨p, l, k, i, e1, e2, h1, toEnd⟩
    · refine ⟨cur, l, k, i, e1, e2, h2, ?_⟩
      intro ms' tr
      obtain ⟨ms, h3, h4⟩ := toEnd ms' tr
      refine ⟨.phis cur :: ms, by rw [hcur]; exact .jump h3 h1, ?_⟩
      intro d hd x hx
      rcases List.mem_cons.1 hd with rfl | hd
      · exact absurd hx (nophi_defines hcur)
      · exact h4 d hd x hx

theorem mem_labels {i : Inst} (hl : i.labels.length = i.args.length) {p : Nat} :
    p ∈ i.labels ↔ ∃ a, (p, a) ∈ i.labels.zip i.args := by
  constructor
  · intro hp
    rw [← map_fst_zip' hl] at hp
    obtain ⟨⟨q, a⟩, h1, rfl⟩ := List.mem_map.1 hp
    exact ⟨a, h1⟩
  · rintro ⟨a, h⟩
    exact (List.of_mem_zip h).1

theorem phi_length (v : Inv c) {l k : Nat} {i : Inst} (e : instAt c l k = some i) (ht : i.t = .phi) :
    i.labels.length = i.args.length := by
  have hs := v.prog.wf.shape l k i e
  simp only [Shape, ht] at hs
  exact hs.2

theorem Elim.labels (h : Elim c c' cur s f) (v : Inv c) {l k : Nat} {i : Inst} (e : instAt c l k = some i)
    (ht : i.t = .phi) (q : Nat) : q ∈ (f i).labels ↔
      q ≠ cur ∧ (q ∈ i.labels ∨ (c.graph.Edge q cur ∧ cur ∈ i.labels)) := by
  obtain ⟨-, -, -, h1, h2⟩ := h.phis l k i e ht
  have hl := phi_length v e ht
  rw [mem_labels h1, mem_labels hl, mem_labels hl]
  simp only [h2]
  constructor
  · rintro ⟨a, h3, h4 | ⟨h4, h5⟩⟩
    · exact ⟨h3, .inl ⟨a, h4⟩⟩
    · exact ⟨h3, .inr ⟨h4, a, h5⟩⟩
  · rintro ⟨h3, ⟨a, h4⟩ | ⟨h4, a, h5⟩⟩
    · exact ⟨a, h3, .inl h4⟩
    · exact ⟨a, h3, .inr ⟨h4, h5⟩⟩

/-- What may vanish in the new program may in the old one. -/
theorem Elim.hollow (h : Elim c c' cur s f) (v : Inv c) {x : Nat} (hx : x ≠ cur) (hh : Hollow c' x) : Hollow c x := by
  have hcur : Hollow c cur := .empty (blockOf_some h.empty)
  induction hh with
  | @empty p hp =>
    rcases h.cases v hx with ⟨h1, -⟩ | ⟨is, j, a, t, e, h1, h2, h3, h4, h5, h6, h7, h8, h9, ⟨-, -, h10⟩ | ⟨-, h10⟩⟩
    · rw [h1] at hp
      exact .empty (List.map_eq_nil_iff.1 hp)
    · rw [h10] at hp
      rw [List.map_eq_nil_iff.1 hp] at h1
      refine .fork h1 h2 ((h8 cur).2 ?_) hcur
      rcases h9 with ⟨rfl, -⟩ | ⟨rfl, -⟩ <;> simp
    · rw [h10] at hp; simp at hp
  | @fork p d i hb ht he _ ih =>
    have hd : d ≠ cur := ((h.cut.edge _ _).1 he).2.1
    have hdh := ih hd
    have key : ∃ j, Opt.blockOf c p = [j] ∧ j.t = .condGoto := by
      have e : instAt c' p 0 = some i := by simp [instAt, hb]
      rcases h.back_branch v e ht with ⟨h1, -, h2⟩ | ⟨is, j, a, t, e', h1, h2, h3, h4, h5, h7, h8, h9, h11, rfl, h10⟩
      · rw [h2] at hb
        have hlen := congrArg List.length hb
        rw [List.length_map] at hlen
        obtain ⟨j, hj⟩ := List.length_eq_one_iff.1 hlen
        rw [instAt, hj] at h1
        simp only [List.getElem?_cons_zero, Option.some.injEq] at h1
        exact ⟨j, hj, h1 ▸ ht⟩
      · rw [h10] at hb
        have hlen := congrArg List.length hb
        have : is = [] := by
          refine List.length_eq_zero_iff.1 ?_
          simpa using hlen
        exact ⟨j, by rw [h1, this]; rfl, h2⟩
    obtain ⟨j, hj, htj⟩ := key
    obtain ⟨-, -, h1 | ⟨h1, -⟩⟩ := (h.cut.edge _ _).1 he
    · exact .fork hj htj h1 hdh
    · exact .fork hj htj h1 hcur

theorem Elim.chain (h : Elim c c' cur s f) (v : Inv c) {b p : Nat} (hc : Chain c' b p) : Chain c b p := by
  have hcur : Hollow c cur := .empty (blockOf_some h.empty)
  induction hc with
  | refl => exact .refl
  | step e hd _ ih =>
    obtain ⟨-, h2, h3⟩ := (h.cut.edge _ _).1 e
    have hd' := h.hollow v h2 hd
    rcases h3 with h3 | ⟨h3, h4⟩
    · exact .step h3 hd' ih
    · exact .step h3 hcur (.step h4 hd' ih)

theorem Elim.pred (h : Elim c c' cur s f) (v : Inv c) : ∃ p, p ≠ cur ∧ c.graph.Edge p cur := by
  have hb : (Cfg.block c cur).isSome := by rw [h.empty]; rfl
  obtain ⟨p, h1, h2, -⟩ := (h.cut.reach_aux (v.prog.reach.1 cur hb)).2 rfl
  exact ⟨p, h1, h2⟩

theorem Elim.inv (h : Elim c c' cur s f) (v : Inv c) : Inv c' := by
  have hcur : Hollow c cur := .empty (blockOf_some h.empty)
  refine ⟨⟨h.cut.hist, h.wf v, h.ssa v, h.cut.reach v.prog.reach (fun x hx => h.isSome.1 hx), ?_, ?_, ?_, ?_⟩,
    ?_, ?_, ?_, ?_, ?_⟩
  · intro k i e ht
    obtain ⟨-, i, e1, e2, rfl⟩ := h.back_phi v e ht
    rw [h.cut.entry] at e1
    exact v.prog.entry k i e1 e2
  · intro l k i e ht p hp
    obtain ⟨-, i, e1, e2, rfl⟩ := h.back_phi v e ht
    rw [h.labels v e1 e2]
    obtain ⟨h1, -, h2 | ⟨h2, h3⟩⟩ := (h.cut.edge _ _).1 hp
    · exact ⟨h1, .inl (v.prog.cover l k i e1 e2 p h2)⟩
    · exact ⟨h1, .inr ⟨h2, v.prog.cover l k i e1 e2 cur h3⟩⟩
  · intro l hl
    obtain ⟨h1, h2⟩ := (h.cut.nodes l).1 (contains_iff.1 hl)
    exact h.isSome.2 ⟨h2, v.prog.nodes l (contains_iff.2 h1)⟩
  · intro l k i' e ht y hy
    obtain ⟨-, hyc, hy⟩ := (h.cut.edge _ _).1 hy
    rcases h.back_branch v e ht with ⟨h1, h2, -⟩ | ⟨is, j, a, t, e', h1, h2, h3, h4, h5, h7, h8, h9, h11, rfl, h10⟩
    · rcases hy with hy | ⟨hy, -⟩
      · exact v.prog.taken l k i' h1 ht y hy
      · exact absurd (v.prog.taken l k i' h1 ht cur hy) h2
    · simp only [List.mem_cons, List.not_mem_nil, or_false]
      rcases h9 with ⟨rfl, hne⟩ | ⟨rfl, hne⟩
      · simp only [if_true, if_neg hne]
        rcases hy with hy | ⟨-, hy⟩
        · exact .inr (((h8 y).1 hy).resolve_left hyc)
        · exact .inl (h.child y hy)
      · simp only [if_true, if_neg hne]
        rcases hy with hy | ⟨-, hy⟩
        · exact .inl (((h8 y).1 hy).resolve_right hyc)
        · exact .inr (h.child y hy)
  · intro l k i e ht p hp
    obtain ⟨hl, i, e1, e2, rfl⟩ := h.back_phi v e ht
    obtain ⟨h1, h2 | ⟨h2, h3⟩⟩ := (h.labels v e1 e2 p).1 hp
    · exact (h.cut.edge _ _).2 ⟨h1, hl, .inl (v.exact l k i e1 e2 p h2)⟩
    · exact (h.cut.edge _ _).2 ⟨h1, hl, .inr ⟨h2, v.exact l k i e1 e2 cur h3⟩⟩
  · intro l k i' e ht
    rcases h.back_branch v e ht with ⟨h1, h2, -⟩ | ⟨is, j, a, t, e', h1, h2, h3, h4, h5, h7, h8, h9, h11, rfl, h10⟩
    · exact v.forks l k i' h1 ht
    · simpa using h11
  · intro l hpl a b ha hb
    obtain ⟨hl, hac, ha⟩ := (h.cut.edge _ _).1 ha
    obtain ⟨-, hbc, hb⟩ := (h.cut.edge _ _).1 hb
    rcases h.cases v hl with ⟨h1, h2⟩ | ⟨is, j, x, t, e, h1, h2, h3, h4, h5, h6, h7, h8, h9, ⟨h11, h12, h10⟩ | ⟨h11, h10⟩⟩
    · have ho := v.only l (fun k i e => by
        rw [← (h.same e).1]
        refine hpl k (f i) ?_
        rw [instAt, h1, List.getElem?_map]
        rw [instAt] at e
        rw [e]
        rfl)
      rcases ha with ha | ⟨ha, ha'⟩
      · rcases hb with hb | ⟨hb, hb'⟩
        · exact ho a b ha hb
        · exact absurd (ho a cur ha hb) hac
      · rcases hb with hb | ⟨hb, hb'⟩
        · exact absurd (ho b cur hb ha) hbc
        · rw [h.child a ha', h.child b hb']
    · have key : ∀ y, y ≠ cur → (c.graph.Edge l y ∨ c.graph.Edge l cur ∧ c.graph.Edge cur y) → y = s := by
        intro y hyc hy
        rcases hy with hy | ⟨-, hy⟩
        · rcases (h8 y).1 hy with rfl | rfl
          · rwa [if_neg hyc] at h11
          · rwa [if_neg hyc] at h12
        · exact h.child y hy
      rw [key a hac ha, key b hbc hb]
    · refine absurd h2 (hpl is.length { j with labels := [if t = cur then s else t, if e = cur then s else e] } ?_)
      rw [instAt, h10, List.getElem?_append_right (by simp), List.length_map, Nat.sub_self]
      rfl
  · intro l k i' e ht b
    obtain ⟨hl, i, e1, e2, rfl⟩ := h.back_phi v e ht
    obtain ⟨⟨p, hp, hn⟩, hr⟩ := v.race l k i e1 e2 b
    obtain ⟨-, -, -, -, hz⟩ := h.phis l k i e1 e2
    constructor
    · by_cases hpc : p = cur
      · subst hpc
        obtain ⟨q, hq1, hq2⟩ := h.pred v
        exact ⟨q, (h.labels v e1 e2 q).2 ⟨hq1, .inr ⟨hq2, hp⟩⟩, fun hc => hn ((h.chain v hc).snoc hq2 hcur)⟩
      · exact ⟨p, (h.labels v e1 e2 p).2 ⟨hpc, .inl hp⟩, fun hc => hn (h.chain v hc)⟩
    · have old : ∀ p x, (p, x) ∈ (f i).labels.zip (f i).args → Chain c' b p →
          ∃ p0, (p0, x) ∈ i.labels.zip i.args ∧ Chain c b p0 := by
        intro p x hpx hc
        obtain ⟨-, h1 | ⟨h1, h2⟩⟩ := (hz p x).1 hpx
        · exact ⟨p, h1, h.chain v hc⟩
        · exact ⟨cur, h2, (h.chain v hc).snoc h1 hcur⟩
      intro p x q y hpx hqy hcp hcq
      obtain ⟨p0, h1, h2⟩ := old p x hpx hcp
      obtain ⟨q0, h3, h4⟩ := old q y hqy hcq
      exact hr p0 x q0 y h1 h3 h2 h4
  · intro h0 hh l k i' e ht p hp hc
    obtain ⟨hl, i, e1, e2, rfl⟩ := h.back_phi v e ht
    rw [h.cut.entry] at h0
    have hh' := h.hollow v (fun e => h.cut.ne (e.symm.trans h0.symm)) hh
    have hc' := h.chain v hc
    obtain ⟨-, -, h1 | ⟨h1, h2⟩⟩ := (h.cut.edge _ _).1 hp
    · exact v.apart h0 hh' l k i e1 e2 p h1 hc'
    · exact v.apart h0 hh' l k i e1 e2 cur h2 (hc'.snoc h1 hcur)

/-! ## Runs -/

variable {V W : Type} {I : Interp V W}

theorem Elim.exec_map (h : Elim c c' cur s f) : ∀ {is : List Inst}, (∀ j ∈ is, ∃ l k, instAt c l k = some j) →
    ∀ {x : (Nat → V) × W}, execAll I (is.map f) x = execAll I is x
  | [], _, _ => rfl
  | i :: is, hi, x => by
    have ih := h.exec_map (is := is) (fun j hj => hi j (by simp [hj])) (x := exec I i x)
    simp only [execAll, List.map_cons, List.foldl_cons] at ih ⊢
    have : exec I (f i) x = exec I i x := by
      obtain ⟨l, k, e⟩ := hi i (by simp)
      obtain ⟨h1, -, h2⟩ := h.same e
      by_cases ht : i.t = .phi
      · rw [exec_phi I x ht, exec_phi I x (h1.trans ht)]
      · rw [h2 ht]
    rw [this]
    exact ih

theorem Elim.exec (h : Elim c c' cur s f) (v : Inv c) {l : Nat} (hl : l ≠ cur) (x : (Nat → V) × W) :
    execAll I (Opt.blockOf c' l) x = execAll I (Opt.blockOf c l) x := by
  have at_ : ∀ {is : List Inst}, (∀ j ∈ is, j ∈ Opt.blockOf c l) → ∀ j ∈ is, ∃ l k, instAt c l k = some j :=
    fun hs j hj => ⟨l, mem_instAt (hs j hj)⟩
  rcases h.cases v hl with ⟨h1, -⟩ | ⟨is, j, a, t, e, h1, h2, h3, h4, h5, h6, h7, h8, h9, ⟨h11, h12, h10⟩ | ⟨h11, h10⟩⟩
  · rw [h1, h.exec_map (at_ (fun _ h => h))]
  · rw [h10, h1, execAll_append, h.exec_map (at_ (fun j hj => by rw [h1]; simp [hj]))]
    simp [execAll, exec_branch h2]
  · rw [h10, h1, execAll_append, execAll_append, h.exec_map (at_ (fun j hj => by rw [h1]; simp [hj]))]
    simp only [execAll, List.foldl_cons, List.foldl_nil, exec_branch h2]
    exact exec_branch (i := { j with labels := [if t = cur then s else t, if e = cur then s else e] }) h2 _

/-- The phis of a block find the same values: coming from `q'` in the new program is like coming from `q`. -/
theorem Elim.lookup (h : Elim c c' cur s f) (v : Inv c) {l k : Nat} {i : Inst} (e : instAt c l k = some i)
    (ht : i.t = .phi) {q q' : Nat} (hq' : q' ≠ cur) (hq : c.graph.Edge q l)
    (hqq : q' = q ∨ (q = cur ∧ c.graph.Edge q' cur)) :
    ((f i).labels.zip (f i).args).lookup q' = (i.labels.zip i.args).lookup q := by
  obtain ⟨-, -, h1, h2, h3⟩ := h.phis l k i e ht
  have hl := phi_length v e ht
  have hk : ((i.labels.zip i.args).map (·.1)).Nodup := by
    rw [map_fst_zip' hl]; exact v.prog.wf.phiOnce l k i e ht
  have hk' : (((f i).labels.zip (f i).args).map (·.1)).Nodup := by
    rw [map_fst_zip' h2]; exact h1
  obtain ⟨a, ha⟩ := (mem_labels hl).1 (v.prog.cover l k i e ht q hq)
  rw [(mem_lookup hk).1 ha, (mem_lookup hk').1 ((h3 q' a).2 ⟨hq', ?_⟩)]
  rcases hqq with rfl | ⟨rfl, h4⟩
  · exact .inl ha
  · exact .inr ⟨h4, ha⟩

theorem Elim.enter_map (h : Elim c c' cur s f) (v : Inv c) {l : Nat} {q q' : Nat} (hq' : q' ≠ cur)
    (hq : c.graph.Edge q l) (hqq : q' = q ∨ (q = cur ∧ c.graph.Edge q' cur)) (src : Nat → V) :
    ∀ {is : List Inst}, (∀ j ∈ is, ∃ k, instAt c l k = some j) → ∀ {e : Nat → V},
      Opt.enter I src q' (is.map f) e = Opt.enter I src q is e
  | [], _, _ => rfl
  | i :: is, hi, e => by
    obtain ⟨k, hk⟩ := hi i (by simp)
    obtain ⟨h1, h2, h3⟩ := h.same hk
    simp only [List.map_cons, Opt.enter, h1, h2]
    rw [h.enter_map v hq' hq hqq src (fun j hj => hi j (by simp [hj]))]
    by_cases ht : i.t = .phi
    · rw [if_pos ht, if_pos ht, h.lookup v hk ht hq' hq hqq]
    · rw [if_neg ht, if_neg ht]

theorem Elim.enter (h : Elim c c' cur s f) (v : Inv c) {l : Nat} (hl : l ≠ cur) {q q' : Nat} (hq' : q' ≠ cur)
    (hq : c.graph.Edge q l) (hqq : q' = q ∨ (q = cur ∧ c.graph.Edge q' cur)) (src e : Nat → V) :
    Opt.enter I src q' (Opt.blockOf c' l) e = Opt.enter I src q (Opt.blockOf c l) e := by
  have key : ∀ is : List Inst, (∀ j ∈ is, j ∈ Opt.blockOf c l) → ∀ {e : Nat → V},
      Opt.enter I src q' (is.map f) e = Opt.enter I src q is e :=
    fun is hs => h.enter_map v hq' hq hqq src (fun j hj => mem_instAt (hs j hj))
  rcases h.cases v hl with ⟨h1, -⟩ | ⟨is, j, a, t, e', h1, h2, h3, h4, h5, h6, h7, h8, h9, ⟨h11, h12, h10⟩ | ⟨h11, h10⟩⟩
  · rw [h1, key _ (fun _ h => h)]
  · rw [h10, h1, enter_append, enter_nophi (is := [j]) (by simp [h2]), key is (fun j hj => by rw [h1]; simp [hj])]
  · rw [h10, h1, enter_append, enter_append, enter_nophi (is := [j]) (by simp [h2]), enter_nophi (by simp [h2]),
      key is (fun j hj => by rw [h1]; simp [hj])]

/-- Where control goes. -/
theorem Elim.next (h : Elim c c' cur s f) (v : Inv c) {l : Nat} (hl : l ≠ cur) (e : Nat → V) :
    (∃ n, n ≠ cur ∧ Opt.next I c l (Opt.blockOf c l) e = some n ∧ Opt.next I c' l (Opt.blockOf c' l) e = some n) ∨
    (Opt.next I c l (Opt.blockOf c l) e = none ∧ Opt.next I c' l (Opt.blockOf c' l) e = none) ∨
    (Opt.next I c l (Opt.blockOf c l) e = some cur ∧
      ((c.graph.Edge cur s ∧ Opt.next I c' l (Opt.blockOf c' l) e = some s) ∨
       ((∀ y, ¬ c.graph.Edge cur y) ∧ Opt.next I c' l (Opt.blockOf c' l) e = none))) := by
  have w := v.hist.wf
  have w' := h.cut.hist.wf
  rcases h.cases v hl with ⟨h1, hnc⟩ | ⟨is, j, a, t, f, h1, h2, h3, h4, h5, h6, h7, h8, h9, ⟨h11, h12, h10⟩ | ⟨h11, h10⟩⟩
  · by_cases hp : ∀ i ∈ Opt.blockOf c l, i.t ≠ .condGoto
    · have hp' : ∀ i ∈ Opt.blockOf c' l, i.t ≠ .condGoto := by
        rw [h1]
        intro i hi
        obtain ⟨j, hj, rfl⟩ := List.mem_map.1 hi
        obtain ⟨k, hk⟩ := mem_instAt hj
        rw [(h.same hk).1]
        exact hp j hj
      have ho := v.only l (fun k i e => hp i (instAt_mem e))
      by_cases hex : ∃ y, c.graph.Edge l y
      · obtain ⟨y, hy⟩ := hex
        have hu : ∀ z, c.graph.Edge l z ↔ z = y := fun z => ⟨fun hz => ho z y hz hy, fun e => e ▸ hy⟩
        by_cases hyc : y = cur
        · subst hyc
          refine .inr (.inr ⟨next_edge_plain w hp hu e, ?_⟩)
          by_cases hs : c.graph.Edge y s
          · refine .inl ⟨hs, next_edge_plain w' hp' ?_ e⟩
            intro z
            rw [h.cut.edge, hu]
            constructor
            · rintro ⟨-, h3, rfl | ⟨-, h4⟩⟩
              · exact absurd rfl h3
              · exact h.child z h4
            · rintro rfl
              exact ⟨hl, h.sne hs, .inr ⟨hy, hs⟩⟩
          · have hno : ∀ z, ¬ c.graph.Edge y z := by
              intro z hz
              rw [h.child z hz] at hz
              exact hs hz
            refine .inr ⟨hno, next_none_plain hp' ?_ e⟩
            intro z
            rw [h.cut.edge, hu]
            rintro ⟨-, h3, rfl | ⟨-, h4⟩⟩
            · exact h3 rfl
            · exact hno z h4
        · refine .inl ⟨y, hyc, next_edge_plain w hp hu e, next_edge_plain w' hp' ?_ e⟩
          intro z
          rw [h.cut.edge, hu, hu]
          constructor
          · rintro ⟨-, -, h3 | ⟨h3, -⟩⟩
            · exact h3
            · exact absurd h3.symm hyc
          · rintro rfl
            exact ⟨hl, hyc, .inl rfl⟩
      · have hno : ∀ y, ¬ c.graph.Edge l y := fun y hy => hex ⟨y, hy⟩
        refine .inr (.inl ⟨next_none_plain hp hno e, next_none_plain hp' ?_ e⟩)
        intro y hy
        obtain ⟨-, -, h3 | ⟨h3, -⟩⟩ := (h.cut.edge _ _).1 hy
        · exact hno _ h3
        · exact hno _ h3
    · have : ∃ i ∈ Opt.blockOf c l, i.t = .condGoto := by simpa using hp
      obtain ⟨i, hi, ht⟩ := this
      obtain ⟨k, hk⟩ := mem_instAt hi
      obtain ⟨is, a, t, f, g1, g2, g3, g4, g5, g6, g7, g8, g9⟩ := branch_shape v hk ht
      have hc := hnc i hi ht
      rw [g4] at hc
      simp only [List.mem_cons, List.not_mem_nil, or_false, not_or] at hc
      refine .inl ⟨if I.truthy (valOf I e a) then t else f, ?_, ?_, ?_⟩
      · split
        · exact fun e => hc.1 e.symm
        · exact fun e => hc.2 e.symm
      · rw [g1]; exact next_branch ht g3 g4 e
      · rw [h1, g1, List.map_append, List.map_singleton, h.other i (by rw [ht]; decide)]
        exact next_branch ht g3 g4 e
  · have hlc : c.graph.Edge l cur := (h8 cur).2 (by rcases h9 with ⟨rfl, -⟩ | ⟨rfl, -⟩ <;> simp)
    have hn : Opt.next I c l (Opt.blockOf c l) e = some (if I.truthy (valOf I e a) then t else f) := by
      rw [h1]; exact next_branch h2 h4 h5 e
    have hn' : Opt.next I c' l (Opt.blockOf c' l) e = some s := by
      rw [h10]
      refine next_edge_plain w' (fun i hi => ?_) ?_ e
      · obtain ⟨j', hj', rfl⟩ := List.mem_map.1 hi
        obtain ⟨k, hk⟩ := mem_instAt (c := c) (l := l) (i := j') (by rw [h1]; simp [hj'])
        rw [(h.same hk).1]
        exact h6 j' hj'
      intro z
      rw [h.cut.edge]
      constructor
      · rintro ⟨-, hz, h3 | ⟨-, h3⟩⟩
        · rcases (h8 z).1 h3 with rfl | rfl
          · rwa [if_neg hz] at h11
          · rwa [if_neg hz] at h12
        · exact h.child z h3
      · rintro rfl
        exact ⟨hl, h.sne h7, .inr ⟨hlc, h7⟩⟩
    rw [hn, hn']
    have hs := h.sne h7
    by_cases hb : I.truthy (valOf I e a) = true
    · rw [if_pos hb]
      by_cases htc : t = cur
      · subst htc
        exact .inr (.inr ⟨rfl, .inl ⟨h7, rfl⟩⟩)
      · rw [if_neg htc] at h11
        subst h11
        exact .inl ⟨t, hs, rfl, rfl⟩
    · rw [if_neg hb]
      by_cases htc : f = cur
      · subst htc
        exact .inr (.inr ⟨rfl, .inl ⟨h7, rfl⟩⟩)
      · rw [if_neg htc] at h12
        subst h12
        exact .inl ⟨f, hs, rfl, rfl⟩
  · have hn : Opt.next I c l (Opt.blockOf c l) e = some (if I.truthy (valOf I e a) then t else f) := by
      rw [h1]; exact next_branch h2 h4 h5 e
    have hn' : Opt.next I c' l (Opt.blockOf c' l) e =
        some (if I.truthy (valOf I e a) then (if t = cur then s else t) else (if f = cur then s else f)) := by
      rw [h10]
      exact next_branch (i := { j with labels := [if t = cur then s else t, if f = cur then s else f] }) h2 h4 rfl e
    rw [hn, hn']
    by_cases hb : I.truthy (valOf I e a) = true
    · rw [if_pos hb, if_pos hb]
      by_cases htc : t = cur
      · rw [if_pos htc]
        subst htc
        exact .inr (.inr ⟨rfl, .inl ⟨h7, rfl⟩⟩)
      · rw [if_neg htc]
        exact .inl ⟨t, htc, rfl, rfl⟩
    · rw [if_neg hb, if_neg hb]
      by_cases htc : f = cur
      · rw [if_pos htc]
        subst htc
        exact .inr (.inr ⟨rfl, .inl ⟨h7, rfl⟩⟩)
      · rw [if_neg htc]
        exact .inl ⟨f, htc, rfl, rfl⟩

theorem Elim.skips (h : Elim c c' cur s f) (v : Inv c) : Skips c c' := by
  have hcur : Opt.blockOf c cur = [] := blockOf_some h.empty
  refine skips_of (fun x' x => x' = x ∧ x.at_ ≠ some cur) ?_ ?_ ?_
  · intro V W I e w
    refine ⟨0, ?_, ?_⟩
    · simp only [Opt.run, h.cut.entry]
    · simp only [Opt.run, ne_eq, Option.some.injEq]
      exact fun e => h.cut.ne e.symm
  · rintro V W I x' x ⟨rfl, hx⟩
    obtain ⟨at_, env, world⟩ := x'
    cases at_ with
    | none => exact ⟨0, rfl, by simp [steps, Opt.step]⟩
    | some l =>
      have hl : l ≠ cur := fun e => hx (by rw [e])
      have hex := h.exec (I := I) v hl (env, world)
      rcases h.next (I := I) v hl (execAll I (Opt.blockOf c l) (env, world)).1 with
        ⟨n, h1, h2, h3⟩ | ⟨h2, h3⟩ | ⟨h2, ⟨h4, h3⟩ | ⟨h4, h3⟩⟩
      · refine ⟨0, ?_⟩
        simp only [steps]
        rw [step_to hex h3, step_to rfl h2, h.enter v h1 hl (next_edge v.prog.wf h2) (.inl rfl)]
        exact ⟨rfl, by simpa using h1⟩
      · refine ⟨0, ?_⟩
        simp only [steps]
        rw [step_end hex h3, step_end rfl h2]
        exact ⟨rfl, by simp⟩
      · have hs := h.sne h4
        have hnx : ∀ e : Nat → V, Opt.next I c cur (Opt.blockOf c cur) e = some s := by
          intro e
          rw [hcur]
          exact next_edge_plain v.hist.wf (by simp) (fun y => ⟨h.child y, fun e => e ▸ h4⟩) e
        refine ⟨1, ?_⟩
        simp only [steps]
        rw [step_to hex h3, step_to rfl h2, h.enter v hs hl h4 (.inr ⟨rfl, next_edge v.prog.wf h2⟩),
          enter_nophi (is := Opt.blockOf c cur) (by simp [hcur]), step_to (by rw [hcur]) (hnx _)]
        exact ⟨rfl, by simpa using hs⟩
      · have hnx : ∀ e : Nat → V, Opt.next I c cur (Opt.blockOf c cur) e = none := by
          intro e
          rw [hcur]
          exact next_none_plain (by simp) h4 e
        refine ⟨1, ?_⟩
        simp only [steps]
        rw [step_end hex h3, step_to rfl h2,
          enter_nophi (is := Opt.blockOf c cur) (by simp [hcur]), step_end (by rw [hcur]) (hnx _)]
        exact ⟨rfl, by simp⟩
  · rintro V W x' x ⟨rfl, -⟩
    exact ⟨Iff.rfl, rfl⟩

end

end Verif.Prune
