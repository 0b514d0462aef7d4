import Verif.Prune.Merge
/-!
# The removal of one block
-/

namespace Verif.Prune

open Verif.Il Verif.Graph Verif.Opt Verif.Ssa

/-- What is known after the removal of a block. -/
structure Removal (c c' : Cfg) (cur : Nat) : Prop where
  cut : Cut c c' cur
  inv : Inv c'
  skips : Skips c c'
  leaf : ∀ x, x ≠ cur → Cfg.block c x = some [] → (∀ y, ¬ c.graph.Edge x y) →
    Cfg.block c' x = some [] ∧ ∀ y, ¬ c'.graph.Edge x y
  exits : NoEmptyExit c → NoEmptyExit c'

theorem turn_nil {cur s : Nat} : turn cur s [] = [] := rfl

theorem Cut.noEdge {c c' : Cfg} {cur x : Nat} (h : Cut c c' cur) (hx : ∀ y, ¬ c.graph.Edge x y) (y : Nat) :
    ¬ c'.graph.Edge x y := by
  rw [h.edge]
  rintro ⟨-, -, e | ⟨e, -⟩⟩
  · exact hx _ e
  · exact hx _ e

theorem Elim.removal {c c' : Cfg} {cur s : Nat} {f : Inst → Inst} (h : Elim c c' cur s f) (v : Inv c) : Removal c c' cur := by
  refine ⟨h.cut, h.inv v, h.skips v, ?_, ?_⟩
  · intro x hx hb hy
    exact ⟨by rw [h.block, if_neg hx, hb]; rfl, h.cut.noEdge hy⟩
  · intro hn l hl he hs hb
    obtain ⟨h1, h2⟩ := h.isSome.1 hl
    rw [h.cut.entry] at he
    have hcs : c.graph.Edge cur s := by
      refine Classical.byContradiction (fun hc => ?_)
      refine hn cur (by rw [h.empty]; rfl) h.cut.ne ?_ (blockOf_some h.empty)
      intro y hy
      exact hc ((h.child y hy) ▸ hy)
    refine hn l h2 he ?_ ?_
    · intro y hy
      by_cases hyc : y = cur
      · exact hs s ((h.cut.edge l s).2 ⟨h1, h.sne hcs, .inr ⟨hyc ▸ hy, hcs⟩⟩)
      · exact hs y ((h.cut.edge l y).2 ⟨h1, hyc, .inl hy⟩)
    · rcases h.cases v h1 with ⟨h3, -⟩ | ⟨is, i, a, t, f, h3, h4, h5, h6, h7, h8, h9, h10, h11, -⟩
      · rw [h3] at hb
        exact List.map_eq_nil_iff.1 hb
      · exfalso
        rcases h11 with ⟨rfl, h12⟩ | ⟨rfl, h12⟩
        · exact hs f ((h.cut.edge l f).2 ⟨h1, h12, .inl ((h10 f).2 (.inr rfl))⟩)
        · exact hs t ((h.cut.edge l t).2 ⟨h1, h12, .inl ((h10 t).2 (.inl rfl))⟩)

theorem Merge.removal {c c' : Cfg} {cur p : Nat} (h : Merge c c' cur p) (v : Inv c) : Removal c c' cur := by
  refine ⟨h.cut, h.inv v, h.skips v, ?_, ?_⟩
  · intro x hx hb hy
    have hp : x ≠ p := by
      rintro rfl
      exact hy cur ((h.succ cur).2 rfl)
    exact ⟨by rw [h.block, if_neg hx, hb]; simp [hp], h.cut.noEdge hy⟩
  · intro hn l hl he hs hb
    obtain ⟨h1, h2⟩ := h.isSome.1 hl
    rw [h.cut.entry] at he
    by_cases hp : l = p
    · subst hp
      rw [h.blockOf_p v] at hb
      refine hn cur ?_ h.cut.ne ?_ (List.append_eq_nil_iff.1 hb).2
      · exact v.prog.wf.edgeBlock _ _ ((h.pred l).2 rfl)
      · intro y hy
        exact hs y (h.edge.2 (.inr ⟨rfl, hy⟩))
    · rw [h.blockOf h1 hp] at hb
      refine hn l h2 he ?_ (by simpa using hb)
      intro y hy
      exact hs y (h.edge.2 (.inl ⟨h1, hp, hy⟩))

/-! ## The operations on instructions -/

theorem moveTo_plain {cur : Nat} {cs : List Nat} {insts is : List Inst} (h : ∀ i ∈ is, i.t ≠ .condGoto) :
    moveTo cur cs insts is = some (is ++ insts) := by
  simp only [moveTo]
  cases hl : is.getLast? with
  | none => rfl
  | some i => simp only [if_neg (h i (List.mem_of_getLast? hl))]

theorem moveTo_branch {cur s t f : Nat} {is : List Inst} {i : Inst} (ht : i.t = .condGoto) (hl : i.labels = [t, f]) :
    moveTo cur [s] [] (is ++ [i]) = some (turn cur s (is ++ [i])) := by
  rw [turn_branch ht hl]
  simp only [moveTo, List.getLast?_concat, if_pos ht, hl, List.map_cons, List.map_nil, List.dropLast_concat,
    List.append_nil]
  exact (apply_ite some _ _ _).symm

theorem mapPhis_map {f : Inst → Option Inst} {g : Inst → Inst} : ∀ {is : List Inst},
    is.Pairwise (fun a b => b.t = .phi → a.t = .phi) → (∀ i ∈ is, i.t = .phi → f i = some (g i)) →
    (∀ i ∈ is, i.t ≠ .phi → g i = i) → mapPhis f is = some (is.map g)
  | [], _, _, _ => rfl
  | i :: is, hp, h1, h2 => by
    obtain ⟨hp1, hp2⟩ := List.pairwise_cons.1 hp
    simp only [mapPhis]
    by_cases ht : i.t = .phi
    · rw [if_pos ht, h1 i (by simp) ht, mapPhis_map hp2 (fun j hj => h1 j (by simp [hj])) (fun j hj => h2 j (by simp [hj]))]
      rfl
    · rw [if_neg ht, List.map_cons, h2 i (by simp) ht]
      have : is.map g = is := by
        conv => rhs; rw [← List.map_id is]
        refine List.map_congr_left (fun j hj => ?_)
        exact h2 j (by simp [hj]) (fun hj' => ht (hp1 j hj hj'))
      rw [this]

theorem mapPhis_none {f : Inst → Option Inst} {is : List Inst} (h : ∀ i ∈ is, i.t ≠ .phi) : mapPhis f is = some is := by
  cases is with
  | nil => rfl
  | cons i is => simp only [mapPhis, if_neg (h i (by simp))]

theorem redirect_one {cur p : Nat} {i : Inst} (ht : i.t = .phi) (hn : i.labels.Nodup)
    (hl : i.labels.length = i.args.length) (hp : p ∉ i.labels) :
    redirect cur [p] i = some (relabel cur p i) := by
  simp only [redirect, removePhi, relabel, if_pos ht, if_pos (And.intro ht hl)]
  rcases idxOf_erase (cur := cur) hn hl with ⟨h1, h2⟩ | ⟨k, b, h1, h2, h3, h4, h5, h6, h7, h8⟩
  · rw [h1]; rfl
  · have hx : p ∉ i.labels.eraseIdx k := fun h => hp ((h6 p).1 h).1
    have hi : (i.labels.eraseIdx k).idxOf? p = none := List.idxOf?_eq_none_iff.2 hx
    simp only [h1, h2, Option.bind_eq_bind, Option.bind_some, List.foldlM_cons, List.foldlM_nil, overwrite, hi,
      insertPhi, Option.getD_some]
    rw [if_pos ⟨ht, h4, hx⟩]
    rfl

/-- The entries of a phi. -/
abbrev entries (i : Inst) : List (Nat × Arg) := i.labels.zip i.args

theorem overwrite_spec {i : Inst} {p : Nat} {a : Arg} (ht : i.t = .phi) (hn : i.labels.Nodup)
    (hl : i.labels.length = i.args.length) (ha : ∀ b, (p, b) ∈ entries i → b = a) :
    ∃ j, overwrite i p a = some j ∧ j.t = .phi ∧ j.tgts = i.tgts ∧ j.labels.Nodup ∧ j.labels.length = j.args.length ∧
      ∀ q b, (q, b) ∈ entries j ↔ (q, b) ∈ entries i ∨ (q = p ∧ b = a) := by
  by_cases hp : p ∈ i.labels
  · rcases idxOf_erase (cur := p) hn hl with ⟨-, h2⟩ | ⟨k, b, h1, h2, h3, -⟩
    · exact absurd hp h2
    · obtain ⟨hk, hkb⟩ := List.getElem?_eq_some_iff.1 h2
      have e := ha b h3
      subst e
      have : i.args.set k b = i.args := by
        rw [← hkb]
        exact List.set_getElem_self hk
      refine ⟨i, ?_, ht, rfl, hn, hl, ?_⟩
      · simp only [overwrite, h1, if_pos hk, this]
      · intro q d
        constructor
        · exact .inl
        · rintro (h | ⟨rfl, rfl⟩)
          · exact h
          · exact h3
  · refine ⟨{ i with labels := i.labels ++ [p], args := i.args ++ [a] }, ?_, ht, rfl, ?_, by simp [hl], ?_⟩
    · simp only [overwrite, List.idxOf?_eq_none_iff.2 hp, insertPhi]
      rw [if_pos ⟨ht, hl, hp⟩]
    · exact List.nodup_append.2 ⟨hn, by simp, fun x hx y hy e => hp (by simp at hy; subst hy; exact e ▸ hx)⟩
    · intro q b
      simp only [entries, List.zip_append hl, List.zip_cons_cons, List.zip_nil_right, List.mem_append, List.mem_singleton,
        Prod.mk.injEq]

theorem overwrites_spec {a : Arg} : ∀ {ps : List Nat} {i : Inst}, i.t = .phi → i.labels.Nodup →
    i.labels.length = i.args.length → (∀ p ∈ ps, ∀ b, (p, b) ∈ entries i → b = a) →
    ∃ j, ps.foldlM (fun i p => overwrite i p a) i = some j ∧ j.t = .phi ∧ j.tgts = i.tgts ∧ j.labels.Nodup ∧
      j.labels.length = j.args.length ∧ ∀ q b, (q, b) ∈ entries j ↔ (q, b) ∈ entries i ∨ (q ∈ ps ∧ b = a)
  | [], i, ht, hn, hl, _ => ⟨i, rfl, ht, rfl, hn, hl, by simp⟩
  | p :: ps, i, ht, hn, hl, ha => by
    obtain ⟨j, h1, h2, h3, h4, h5, h6⟩ := overwrite_spec ht hn hl (ha p (by simp))
    obtain ⟨j', g1, g2, g3, g4, g5, g6⟩ := overwrites_spec (ps := ps) h2 h4 h5 (by
      intro q hq b hb
      rcases (h6 q b).1 hb with hb | ⟨-, hb⟩
      · exact ha q (by simp [hq]) b hb
      · exact hb)
    refine ⟨j', ?_, g2, g3.trans h3, g4, g5, ?_⟩
    · rw [List.foldlM_cons, h1]
      exact g1
    · intro q b
      rw [g6, h6]
      simp only [List.mem_cons]
      constructor
      · rintro ((h | ⟨h, h'⟩) | ⟨h, h'⟩)
        · exact .inl h
        · exact .inr ⟨.inl h, h'⟩
        · exact .inr ⟨.inr h, h'⟩
      · rintro (h | ⟨h | h, h'⟩)
        · exact .inl (.inl h)
        · exact .inl (.inr ⟨h, h'⟩)
        · exact .inr ⟨h, h'⟩

theorem redirect_spec {cur : Nat} {ps : List Nat} {i : Inst} (ht : i.t = .phi) (hn : i.labels.Nodup)
    (hl : i.labels.length = i.args.length) (hc : cur ∉ ps)
    (ha : ∀ a, (cur, a) ∈ entries i → ∀ p ∈ ps, ∀ b, (p, b) ∈ entries i → b = a) :
    ∃ j, redirect cur ps i = some j ∧ j.t = .phi ∧ j.tgts = i.tgts ∧ j.labels.Nodup ∧
      j.labels.length = j.args.length ∧ ∀ q b, (q, b) ∈ entries j ↔
        q ≠ cur ∧ ((q, b) ∈ entries i ∨ (q ∈ ps ∧ (cur, b) ∈ entries i)) := by
  simp only [redirect, removePhi, if_pos (And.intro ht hl)]
  rcases idxOf_erase (cur := cur) hn hl with ⟨h1, h2⟩ | ⟨k, a, h1, h2, h3, h4, h5, h6, h7, h8⟩
  · rw [h1]
    refine ⟨i, rfl, ht, rfl, hn, hl, ?_⟩
    intro q b
    constructor
    · intro h
      exact ⟨fun e => h2 (e ▸ (List.of_mem_zip h).1), .inl h⟩
    · rintro ⟨-, h | ⟨-, h⟩⟩
      · exact h
      · exact absurd (List.of_mem_zip h).1 h2
  · simp only [h1, h2, Option.bind_eq_bind, Option.bind_some]
    obtain ⟨j, g1, g2, g3, g4, g5, g6⟩ := overwrites_spec (a := a) (ps := ps)
      (i := { i with labels := i.labels.eraseIdx k, args := i.args.eraseIdx k }) ht h7 h4
      (fun p hp b hb => ha a h3 p hp b ((h8 p b).1 hb).1)
    refine ⟨j, g1, g2, g3, g4, g5, ?_⟩
    intro q b
    rw [g6]
    simp only [entries, h8]
    constructor
    · rintro (⟨h, h'⟩ | ⟨h, rfl⟩)
      · exact ⟨h', .inl h⟩
      · exact ⟨fun e => hc (e ▸ h), .inr ⟨h, h3⟩⟩
    · rintro ⟨h', h | ⟨h, h9⟩⟩
      · exact .inl ⟨h, h'⟩
      · refine .inr ⟨h, ?_⟩
        have hk : ((i.labels.zip i.args).map (·.1)).Nodup := by
          rw [map_fst_zip' hl]; exact hn
        have e1 := (mem_lookup hk).1 h9
        have e2 := (mem_lookup hk).1 h3
        rw [e1] at e2
        exact Option.some.inj e2

/-- What becomes of an instruction. -/
def turned (cur : Nat) (ps : List Nat) (i : Inst) : Inst :=
  if i.t = .phi then (redirect cur ps i).getD i else i

/-! ## The whole removal -/

theorem phis_first {c : Cfg} (wf : WellFormed c) (l : Nat) :
    (blockOf c l).Pairwise (fun a b => b.t = .phi → a.t = .phi) := by
  rw [List.pairwise_iff_getElem]
  intro i j hi hj hij ht
  exact wf.phiFirst l j i _ _ (by simp [instAt, hj]) ht (by omega) (by simp [instAt, hi])

theorem relabel_same {c : Cfg} (v : Inv c) {cur p x : Nat} (hx : ¬ c.graph.Edge cur x) :
    (blockOf c x).map (relabel cur p) = blockOf c x := by
  conv => rhs; rw [← List.map_id (blockOf c x)]
  refine List.map_congr_left (fun i hi => ?_)
  obtain ⟨k, hk⟩ := mem_instAt hi
  by_cases ht : i.t = .phi
  · have : cur ∉ i.labels := fun h => hx (v.exact x k i hk ht cur h)
    simp [relabel, ht, List.idxOf?_eq_none_iff.2 this]
  · rw [relabel_other ht]; rfl

theorem turn_same {c : Cfg} (v : Inv c) {cur s x : Nat} (hx : ¬ c.graph.Edge x cur) :
    turn cur s (blockOf c x) = blockOf c x := by
  by_cases hp : ∀ i ∈ blockOf c x, i.t ≠ .condGoto
  · exact turn_plain hp
  · have : ∃ i ∈ blockOf c x, i.t = .condGoto := by simpa using hp
    obtain ⟨i, hi, ht⟩ := this
    obtain ⟨k, hk⟩ := mem_instAt hi
    obtain ⟨is, a, t, f, h1, h2, h3, h4, h5, h6, h7, -⟩ := branch_shape v hk ht
    have e1 : t ≠ cur := fun e => hx (e ▸ h6)
    have e2 : f ≠ cur := fun e => hx (e ▸ h7)
    rw [h1, turn_branch ht h4, if_neg e1, if_neg e2, if_neg h5, ← h4]

theorem remove_ok {c : Cfg} (v : Inv c) {cur : Nat} (hne : cur ≠ c.entry) (hcur : cur ∈ c.graph.labels)
    (hloop : ¬ c.graph.Edge cur cur)
    (hcan : canPrune (c.graph.parentsSorted cur) (c.graph.childrenSorted cur)
      ((c.graph.parentsSorted cur).all (fun p => (c.graph.childrenSorted p).length == 1)) (blockOf c cur).isEmpty = true) :
    ∃ c', removeBlockAt c cur = some c' ∧ Removal c c' cur := by
  have hw := v.hist.wf
  have mp : ∀ x, x ∈ c.graph.parentsSorted cur ↔ c.graph.Edge x cur := fun x => by
    rw [Graph.parentsSorted, mem_sortLabels, v.hist.parent]
  have mc : ∀ a x, x ∈ c.graph.childrenSorted a ↔ c.graph.Edge a x := fun a x => by
    rw [Graph.childrenSorted, mem_sortLabels]; rfl
  have np : (c.graph.parentsSorted cur).Nodup := sortLabels_perm.nodup_iff.2 (hw.nps cur)
  have nc : (c.graph.childrenSorted cur).Nodup := sortLabels_perm.nodup_iff.2 (hw.ncs cur)
  have hb : Cfg.block c cur = some (blockOf c cur) := block_of_isSome (v.prog.nodes cur (contains_iff.2 hcur))
  have only : (c.graph.parentsSorted cur).all (fun p => (c.graph.childrenSorted p).length == 1) = true →
      ∀ x y, c.graph.Edge x cur → c.graph.Edge x y → y = cur := by
    intro h x y hx hy
    have h1 := List.all_eq_true.1 h x ((mp x).2 hx)
    simp only [beq_iff_eq] at h1
    obtain ⟨z, hz⟩ := List.length_eq_one_iff.1 h1
    have e1 := (mc x cur).2 hx
    have e2 := (mc x y).2 hy
    rw [hz] at e1 e2
    simp only [List.mem_singleton] at e1 e2
    rw [e1, e2]
  obtain ⟨g1, r1, r2, r3, r4, r5, r6⟩ := rewire_ok v.hist hcur hloop
  obtain ⟨c1, p1, p2, p3, p4, p5, p6, p7⟩ := pop_ok (c := { c with graph := g1 }) r2 ((r3 cur).2 hcur) r4 r5
    (v.prog.nodes cur (contains_iff.2 hcur))
  have b1 : ∀ x, Cfg.block c1 x = if x = cur then none else Cfg.block c x := p7
  have cut : ∀ {c' : Cfg}, c'.graph = c1.graph → c'.entry = c1.entry → c'.bblocks.map (·.1) = c1.bblocks.map (·.1) →
      Cut c c' cur := by
    intro c' e1 e2 e3
    refine ⟨hne, hloop, by rw [e1]; exact p2, e2.trans p3, ?_, ?_, e3.trans p6⟩
    · intro x
      rw [e1, p4]
      simp only [r3]
    · intro a b
      rw [e1, p5]
      exact r6 a b
  have hsome : ∀ x, c.graph.Edge x cur → Cfg.block c1 x = some (blockOf c x) := by
    intro x hx
    have : x ≠ cur := by rintro rfl; exact hloop hx
    rw [b1, if_neg this]
    exact block_of_isSome (v.prog.nodes x (contains_iff.2 (Hist.left hx)))
  have hchild : ∀ x, c.graph.Edge cur x → Cfg.block c1 x = some (blockOf c x) := by
    intro x hx
    have : x ≠ cur := by rintro rfl; exact hloop hx
    rw [b1, if_neg this]
    exact block_of_isSome (v.prog.wf.edgeBlock _ _ hx)
  by_cases hm : (c.graph.parentsSorted cur).length = 1 ∧
      (c.graph.parentsSorted cur).all (fun p => (c.graph.childrenSorted p).length == 1) = true
  · -- merging
    obtain ⟨h1, h2⟩ := hm
    obtain ⟨p, hp⟩ := List.length_eq_one_iff.1 h1
    have pred : ∀ q, c.graph.Edge q cur ↔ q = p := fun q => by rw [← mp, hp]; simp
    have succ : ∀ y, c.graph.Edge p y ↔ y = cur := by
      intro y
      refine ⟨fun hy => only h2 p y ((pred p).2 rfl) hy, ?_⟩
      rintro rfl
      exact (pred p).2 rfl
    have hpc : p ≠ cur := by rintro rfl; exact hloop ((pred p).2 rfl)
    have nophi : ∀ i ∈ blockOf c cur, i.t ≠ .phi := by
      intro i hi
      obtain ⟨k, hk⟩ := mem_instAt hi
      exact v.lone (fun q hq => (pred q).1 hq) k i hk
    have plain : ∀ i ∈ blockOf c p, i.t ≠ .condGoto := by
      intro i hi ht
      obtain ⟨k, hk⟩ := mem_instAt hi
      obtain ⟨-, -, t, f, -, -, -, -, h5, h6, h7, -⟩ := branch_shape v hk ht
      exact h5 (((succ t).1 h6).trans ((succ f).1 h7).symm)
    obtain ⟨c2, m1, m2, m3, m4, m5⟩ := alters_ok (f := moveTo cur (c.graph.childrenSorted cur) (blockOf c cur))
      (F := fun is => is ++ blockOf c cur) (ls := c.graph.parentsSorted cur) (c := c1) np (by
        intro l hl
        have hl := (mp l).1 hl
        refine ⟨blockOf c l, hsome l hl, moveTo_plain ?_⟩
        rw [(pred l).1 hl]
        exact plain)
    have b2 : ∀ x, Cfg.block c2 x = if x = cur then none else (Cfg.block c x).map (fun is =>
        if x = p then is ++ blockOf c cur else is) := by
      intro x
      rw [m5, b1, hp]
      by_cases hx : x = cur
      · have : x ≠ p := fun e => hpc (e.symm.trans hx)
        simp [hx]
      · by_cases hxp : x = p
        · simp [hxp, hpc]
        · simp [hxp, hx]
    have good : ∀ l, l ≠ cur → ∀ i ∈ blockOf c l, i.t = .phi →
        i.labels.Nodup ∧ i.labels.length = i.args.length ∧ p ∉ i.labels := by
      intro l hl i hi ht
      obtain ⟨k, hk⟩ := mem_instAt hi
      have hs := v.prog.wf.shape l k i hk
      simp only [Shape, ht] at hs
      exact ⟨v.prog.wf.phiOnce l k i hk ht, hs.2, fun h => hl ((succ l).1 (v.exact l k i hk ht p h))⟩
    obtain ⟨c3, n1, n2, n3, n4, n5⟩ := alters_ok (f := mapPhis (redirect cur (c.graph.parentsSorted cur)))
      (F := fun is => is.map (relabel cur p)) (ls := c.graph.childrenSorted cur) (c := c2) nc (by
        intro l hl
        have hl := (mc cur l).1 hl
        have hlc : l ≠ cur := by rintro rfl; exact hloop hl
        have e : Cfg.block c l = some (blockOf c l) := block_of_isSome (v.prog.wf.edgeBlock _ _ hl)
        refine ⟨if l = p then blockOf c l ++ blockOf c cur else blockOf c l, ?_, ?_⟩
        · rw [b2, if_neg hlc, e]; rfl
        · rw [hp]
          refine mapPhis_map ?_ ?_ (fun i _ ht => relabel_other ht)
          · split
            · rw [List.pairwise_append]
              exact ⟨phis_first v.prog.wf l, phis_first v.prog.wf cur, fun a _ b hb ht => absurd ht (nophi b hb)⟩
            · exact phis_first v.prog.wf l
          · intro i hi ht
            have hi' : i ∈ blockOf c l := by
              split at hi
              · rcases List.mem_append.1 hi with hi | hi
                · exact hi
                · exact absurd ht (nophi i hi)
              · exact hi
            obtain ⟨g1, g2, g3⟩ := good l hlc i hi' ht
            exact redirect_one ht g1 g2 g3)
    refine ⟨c3, ?_, ?_⟩
    · simp only [removeBlockAt, hb, r1, p1, m1, Option.bind_eq_bind, Option.bind_some]
      exact n1
    · refine Merge.removal (p := p) ⟨cut (n2.trans m2) (n3.trans m3) (n4.trans m4), pred, succ, ?_⟩ v
      intro x
      rw [n5, b2]
      by_cases hx : x = cur
      · simp [hx]
      · rw [if_neg hx, if_neg hx]
        cases e : Cfg.block c x with
        | none => simp
        | some is =>
          have e' := blockOf_some e
          by_cases hcx : x ∈ c.graph.childrenSorted cur
          · simp [hcx]
          · simp only [hcx, if_false, Option.map_some, Option.some.injEq]
            have h3 : is.map (relabel cur p) = is := by
              rw [← e']
              exact relabel_same v (fun h => hcx ((mc cur x).2 h))
            have h4 : (blockOf c cur).map (relabel cur p) = blockOf c cur := relabel_same v hloop
            split
            · rw [List.map_append, h3, h4]
            · exact h3.symm
  · -- an empty block
    have hemp : blockOf c cur = [] := by
      simp only [canPrune, Bool.or_eq_true, Bool.and_eq_true, beq_iff_eq, List.isEmpty_iff] at hcan
      rcases hcan with (h | ⟨-, h⟩) | ⟨h, -⟩
      · exact absurd h hm
      · exact h
      · exact h
    have plain : ∀ k i, instAt c cur k = some i → i.t ≠ .condGoto := by
      intro k i e
      rw [instAt, hemp] at e
      cases e
    have hs : ∃ s, (∀ y, c.graph.Edge cur y → y = s) ∧ (c.graph.childrenSorted cur = [] ∨ c.graph.childrenSorted cur = [s]) := by
      cases hc : c.graph.childrenSorted cur with
      | nil =>
        refine ⟨0, fun y hy => ?_, .inl rfl⟩
        have := (mc cur y).2 hy
        rw [hc] at this
        cases this
      | cons s r =>
        have hes := (mc cur s).1 (by rw [hc]; simp)
        have h1 : ∀ y, c.graph.Edge cur y → y = s := fun y hy => v.only cur plain y s hy hes
        refine ⟨s, h1, .inr ?_⟩
        cases r with
        | nil => rfl
        | cons s' r =>
          have := h1 s' ((mc cur s').1 (by rw [hc]; simp))
          rw [hc, this] at nc
          simp at nc
    obtain ⟨s, child, hcs⟩ := hs
    have lone : ¬ c.graph.Edge cur s → ∀ x y, c.graph.Edge x cur → c.graph.Edge x y → y = cur := by
      intro hn
      simp only [canPrune, Bool.or_eq_true, Bool.and_eq_true, beq_iff_eq] at hcan
      rcases hcan with (h | ⟨h, -⟩) | ⟨-, h⟩
      · exact absurd h hm
      · rcases hcs with e | e
        · rw [e] at h; simp at h
        · exact absurd ((mc cur s).1 (by rw [e]; simp)) hn
      · exact only h
    obtain ⟨c2, m1, m2, m3, m4, m5⟩ := alters_ok (f := moveTo cur (c.graph.childrenSorted cur) (blockOf c cur))
      (F := turn cur s) (ls := c.graph.parentsSorted cur) (c := c1) np (by
        intro l hl
        have hl := (mp l).1 hl
        refine ⟨blockOf c l, hsome l hl, ?_⟩
        rw [hemp]
        by_cases hpl : ∀ i ∈ blockOf c l, i.t ≠ .condGoto
        · rw [moveTo_plain hpl, turn_plain hpl, List.append_nil]
        · have : ∃ i ∈ blockOf c l, i.t = .condGoto := by simpa using hpl
          obtain ⟨i, hi, ht⟩ := this
          obtain ⟨k, hk⟩ := mem_instAt hi
          obtain ⟨is, a, t, f, h1, h2, h3, h4, h5, h6, h7, -⟩ := branch_shape v hk ht
          rcases hcs with e | e
          · have hn : ¬ c.graph.Edge cur s := by
              intro h
              have := (mc cur s).2 h
              rw [e] at this
              cases this
            exact absurd ((lone hn l t hl h6).trans (lone hn l f hl h7).symm) h5
          · rw [e, h1]
            exact moveTo_branch ht h4)
    have b2 : ∀ x, Cfg.block c2 x = if x = cur then none else (Cfg.block c x).map (turn cur s) := by
      intro x
      rw [m5, b1]
      by_cases hx : x = cur
      · simp [hx]
      · rw [if_neg hx, if_neg hx]
        split
        · rfl
        · rename_i hxp
          cases e : Cfg.block c x with
          | none => rfl
          | some is =>
            rw [Option.map_some, ← blockOf_some e, turn_same v (fun h => hxp ((mp x).2 h))]
    have hcp : cur ∉ c.graph.parentsSorted cur := fun h => hloop ((mp cur).1 h)
    have hollow : Hollow c cur := .empty hemp
    have phis : ∀ l k i, instAt c l k = some i → i.t = .phi → ∃ j, redirect cur (c.graph.parentsSorted cur) i = some j ∧
        j.t = .phi ∧ j.tgts = i.tgts ∧ j.labels.Nodup ∧ j.labels.length = j.args.length ∧
        ∀ q b, (q, b) ∈ entries j ↔ q ≠ cur ∧ ((q, b) ∈ entries i ∨
          (q ∈ c.graph.parentsSorted cur ∧ (cur, b) ∈ entries i)) := by
      intro l k i hk ht
      refine redirect_spec ht (v.prog.wf.phiOnce l k i hk ht) (phi_length v hk ht) hcp ?_
      intro a ha p hp b hb
      exact (v.race l k i hk ht p).2 p b cur a hb ha .refl (.step ((mp p).1 hp) hollow .refl)
    have other : ∀ i : Inst, i.t ≠ .phi → turned cur (c.graph.parentsSorted cur) i = i := fun i ht => by
      simp only [turned, if_neg ht]
    have mem_turn : ∀ {l : Nat} {i : Inst}, i ∈ turn cur s (blockOf c l) → i.t = .phi → i ∈ blockOf c l := by
      intro l i hi ht
      by_cases hpl : ∀ i ∈ blockOf c l, i.t ≠ .condGoto
      · rwa [turn_plain hpl] at hi
      · have : ∃ i ∈ blockOf c l, i.t = .condGoto := by simpa using hpl
        obtain ⟨j, hj, htj⟩ := this
        obtain ⟨k, hk⟩ := mem_instAt hj
        obtain ⟨is, a, t, f, h1, h2, h3, h4, -⟩ := branch_shape v hk htj
        rw [h1] at hi ⊢
        rw [turn_branch htj h4] at hi
        generalize (if t = cur then s else t) = t', (if f = cur then s else f) = f' at hi
        split at hi
        · simp [hi]
        · rcases List.mem_append.1 hi with hi | hi
          · simp [hi]
          · simp only [List.mem_singleton] at hi
            subst hi
            rw [htj] at ht
            cases ht
    have first_turn : ∀ l, (turn cur s (blockOf c l)).Pairwise (fun a b => b.t = .phi → a.t = .phi) := by
      intro l
      have hp := phis_first v.prog.wf l
      by_cases hpl : ∀ i ∈ blockOf c l, i.t ≠ .condGoto
      · rwa [turn_plain hpl]
      · have : ∃ i ∈ blockOf c l, i.t = .condGoto := by simpa using hpl
        obtain ⟨j, hj, htj⟩ := this
        obtain ⟨k, hk⟩ := mem_instAt hj
        obtain ⟨is, a, t, f, h1, h2, h3, h4, -⟩ := branch_shape v hk htj
        rw [h1] at hp ⊢
        rw [turn_branch htj h4]
        obtain ⟨hp1, -, -⟩ := List.pairwise_append.1 hp
        generalize (if t = cur then s else t) = t', (if f = cur then s else f) = f'
        split
        · exact hp1
        · refine List.pairwise_append.2 ⟨hp1, by simp, ?_⟩
          intro a _ b hb ht
          simp only [List.mem_singleton] at hb
          subst hb
          rw [htj] at ht
          cases ht
    obtain ⟨c3, n1, n2, n3, n4, n5⟩ := alters_ok (f := mapPhis (redirect cur (c.graph.parentsSorted cur)))
      (F := fun is => is.map (turned cur (c.graph.parentsSorted cur))) (ls := c.graph.childrenSorted cur) (c := c2) nc (by
        intro l hl
        have hl := (mc cur l).1 hl
        have hlc : l ≠ cur := by rintro rfl; exact hloop hl
        have e : Cfg.block c l = some (blockOf c l) := block_of_isSome (v.prog.wf.edgeBlock _ _ hl)
        refine ⟨turn cur s (blockOf c l), by rw [b2, if_neg hlc, e]; rfl,
          mapPhis_map (first_turn l) ?_ (fun i _ ht => other i ht)⟩
        intro i hi ht
        obtain ⟨k, hk⟩ := mem_instAt (mem_turn hi ht)
        obtain ⟨j, hj, -⟩ := phis l k i hk ht
        rw [hj, turned, if_pos ht, hj]
        rfl)
    refine ⟨c3, ?_, ?_⟩
    · simp only [removeBlockAt, hb, r1, p1, m1, Option.bind_eq_bind, Option.bind_some]
      exact n1
    · refine Elim.removal (s := s) (f := turned cur (c.graph.parentsSorted cur))
        ⟨cut (n2.trans m2) (n3.trans m3) (n4.trans m4), by rw [hb, hemp], child, lone, ?_, other, ?_⟩ v
      · intro x
        rw [n5, b2]
        by_cases hx : x = cur
        · simp [hx]
        · rw [if_neg hx, if_neg hx]
          cases e : Cfg.block c x with
          | none => simp
          | some is =>
            by_cases hcx : x ∈ c.graph.childrenSorted cur
            · simp [hcx]
            · simp only [hcx, if_false, Option.map_some, Option.some.injEq]
              have e' := blockOf_some e
              subst e'
              conv => lhs; rw [← List.map_id (turn cur s (blockOf c x))]
              refine List.map_congr_left (fun i hi => ?_)
              by_cases ht : i.t = .phi
              · obtain ⟨k, hk⟩ := mem_instAt (mem_turn hi ht)
                have hni : cur ∉ i.labels := fun h => hcx ((mc cur x).2 (v.exact x k i hk ht cur h))
                have : redirect cur (c.graph.parentsSorted cur) i = some i := by
                  simp only [redirect, removePhi, if_pos (And.intro ht (phi_length v hk ht)),
                    List.idxOf?_eq_none_iff.2 hni]
                  rfl
                rw [turned, if_pos ht, this]
                rfl
              · exact (other i ht).symm
      · intro l k i hk ht
        obtain ⟨j, h1, h2, h3, h4, h5, h6⟩ := phis l k i hk ht
        have : turned cur (c.graph.parentsSorted cur) i = j := by
          rw [turned, if_pos ht, h1]; rfl
        rw [this]
        refine ⟨h2, h3, h4, h5, fun q a => ?_⟩
        have := h6 q a
        rw [mp] at this
        exact this

end Verif.Prune
