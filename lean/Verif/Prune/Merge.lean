import Verif.Prune.Elim
/-!
# Merging a block into its only predecessor
-/

namespace Verif.Prune

open Verif.Il Verif.Graph Verif.Opt Verif.Ssa

/-- The entry of a phi for `cur` becomes one for `p`. -/
def relabel (cur p : Nat) (i : Inst) : Inst :=
  if i.t = .phi then
    match i.labels.idxOf? cur with
    | none => i
    | some k => { i with labels := i.labels.eraseIdx k ++ [p], args := i.args.eraseIdx k ++ [i.args[k]?.getD (.var 0)] }
  else i

theorem relabel_other {cur p : Nat} {i : Inst} (h : i.t ≠ .phi) : relabel cur p i = i := by
  simp [relabel, h]

theorem relabel_t {cur p : Nat} {i : Inst} : (relabel cur p i).t = i.t ∧ (relabel cur p i).tgts = i.tgts := by
  simp only [relabel]
  split
  · split <;> exact ⟨rfl, rfl⟩
  · exact ⟨rfl, rfl⟩

theorem idxOf_erase {cur : Nat} : ∀ {ls : List Nat} {as : List Arg}, ls.Nodup → ls.length = as.length →
    (ls.idxOf? cur = none ∧ cur ∉ ls) ∨
    ∃ k a, ls.idxOf? cur = some k ∧ as[k]? = some a ∧ (cur, a) ∈ ls.zip as ∧
      (ls.eraseIdx k).length = (as.eraseIdx k).length ∧ (ls.eraseIdx k).length + 1 = ls.length ∧
      (∀ x, x ∈ ls.eraseIdx k ↔ x ∈ ls ∧ x ≠ cur) ∧ (ls.eraseIdx k).Nodup ∧
      ∀ q b, (q, b) ∈ (ls.eraseIdx k).zip (as.eraseIdx k) ↔ (q, b) ∈ ls.zip as ∧ q ≠ cur
  | [], as, _, _ => .inl ⟨rfl, by simp⟩
  | l :: ls, [], _, h => by simp at h
  | l :: ls, a :: as, hn, hl => by
    obtain ⟨hn1, hn2⟩ := List.nodup_cons.1 hn
    simp only [List.length_cons, Nat.add_right_cancel_iff] at hl
    by_cases e : l = cur
    · subst e
      refine .inr ⟨0, a, by simp [List.idxOf?, List.findIdx?_cons], rfl, by simp, ?_, ?_, ?_, ?_, ?_⟩
      · simpa using hl
      · simp
      · intro x
        simp only [List.eraseIdx_cons_zero, List.mem_cons]
        constructor
        · intro hx
          exact ⟨.inr hx, fun e => hn1 (e ▸ hx)⟩
        · rintro ⟨rfl | h, h'⟩
          · exact absurd rfl h'
          · exact h
      · simpa using hn2
      · intro q b
        simp only [List.eraseIdx_cons_zero, List.zip_cons_cons, List.mem_cons, Prod.mk.injEq]
        constructor
        · intro hx
          exact ⟨.inr hx, fun e => hn1 (e ▸ (List.of_mem_zip hx).1)⟩
        · rintro ⟨⟨rfl, -⟩ | h, h'⟩
          · exact absurd rfl h'
          · exact h
    · rcases idxOf_erase (cur := cur) hn2 hl with ⟨h1, h2⟩ | ⟨k, b, h1, h2, h3, h4, h5, h6, h7, h8⟩
      · left
        refine ⟨?_, ?_⟩
        · rw [List.idxOf?_cons]
          simp [e, h1]
        · simp only [List.mem_cons, not_or]
          exact ⟨fun e' => e e'.symm, h2⟩
      · refine .inr ⟨k + 1, b, ?_, by simpa using h2, by simp [h3], by simpa using h4, by simpa using h5, ?_, ?_, ?_⟩
        · rw [List.idxOf?_cons]
          simp [e, h1]
        · intro x
          simp only [List.eraseIdx_cons_succ, List.mem_cons, h6]
          constructor
          · rintro (rfl | ⟨h, h'⟩)
            · exact ⟨.inl rfl, e⟩
            · exact ⟨.inr h, h'⟩
          · rintro ⟨rfl | h, h'⟩
            · exact .inl rfl
            · exact .inr ⟨h, h'⟩
        · simp only [List.eraseIdx_cons_succ, List.nodup_cons, h6]
          exact ⟨fun h => hn1 h.1, h7⟩
        · intro q d
          simp only [List.eraseIdx_cons_succ, List.zip_cons_cons, List.mem_cons, Prod.mk.injEq, h8]
          constructor
          · rintro (⟨rfl, rfl⟩ | ⟨h, h'⟩)
            · exact ⟨.inl ⟨rfl, rfl⟩, e⟩
            · exact ⟨.inr h, h'⟩
          · rintro ⟨⟨rfl, rfl⟩ | h, h'⟩
            · exact .inl ⟨rfl, rfl⟩
            · exact .inr ⟨h, h'⟩

/-- What relabelling does to a phi without entry for `p`. -/
theorem relabel_phi {cur p : Nat} {i : Inst} (ht : i.t = .phi) (hn : i.labels.Nodup)
    (hl : i.labels.length = i.args.length) (hp : p ∉ i.labels) :
    (relabel cur p i).labels.Nodup ∧ (relabel cur p i).labels.length = (relabel cur p i).args.length ∧
    (relabel cur p i).labels.length = i.labels.length ∧
    (∀ x, x ∈ (relabel cur p i).labels ↔ (x ∈ i.labels ∧ x ≠ cur) ∨ (x = p ∧ cur ∈ i.labels)) ∧
    ∀ q a, (q, a) ∈ (relabel cur p i).labels.zip (relabel cur p i).args ↔
      ((q, a) ∈ i.labels.zip i.args ∧ q ≠ cur) ∨ (q = p ∧ (cur, a) ∈ i.labels.zip i.args) := by
  have hr : relabel cur p i = match i.labels.idxOf? cur with
    | none => i
    | some k =>
      { i with labels := i.labels.eraseIdx k ++ [p], args := i.args.eraseIdx k ++ [i.args[k]?.getD (.var 0)] } := by
    simp only [relabel, if_pos ht]
  have uniq : ∀ {a b : Arg}, (cur, a) ∈ i.labels.zip i.args → (cur, b) ∈ i.labels.zip i.args → a = b := by
    intro a b ha hb
    have hk : ((i.labels.zip i.args).map (·.1)).Nodup := by
      rw [map_fst_zip' hl]; exact hn
    have e1 := (mem_lookup hk).1 ha
    have e2 := (mem_lookup hk).1 hb
    rw [e1] at e2
    exact Option.some.inj e2
  rcases idxOf_erase (cur := cur) hn hl with ⟨h1, h2⟩ | ⟨k, b, h1, h2, h3, h4, h5, h6, h7, h8⟩
  · rw [hr, h1]
    refine ⟨hn, hl, rfl, ?_, ?_⟩
    · intro x
      constructor
      · intro hx
        exact .inl ⟨hx, fun e => h2 (e ▸ hx)⟩
      · rintro (⟨h, -⟩ | ⟨-, h⟩)
        · exact h
        · exact absurd h h2
    · intro q a
      constructor
      · intro hx
        exact .inl ⟨hx, fun e => h2 (e ▸ (List.of_mem_zip hx).1)⟩
      · rintro (⟨h, -⟩ | ⟨-, h⟩)
        · exact h
        · exact absurd (List.of_mem_zip h).1 h2
  · rw [hr, h1]
    simp only [h2, Option.getD_some]
    refine ⟨?_, ?_, ?_, ?_, ?_⟩
    · rw [List.nodup_append]
      refine ⟨h7, by simp, ?_⟩
      intro x hx y hy
      simp only [List.mem_singleton] at hy
      subst hy
      rintro rfl
      exact hp ((h6 x).1 hx).1
    · simp [h4]
    · simp only [List.length_append, List.length_singleton]
      exact h5
    · intro x
      simp only [List.mem_append, List.mem_singleton, h6]
      constructor
      · rintro (h | rfl)
        · exact .inl h
        · exact .inr ⟨rfl, (List.of_mem_zip h3).1⟩
      · rintro (h | ⟨rfl, -⟩)
        · exact .inl h
        · exact .inr rfl
    · intro q a
      rw [List.zip_append h4]
      simp only [List.mem_append, h8, List.zip_cons_cons, List.zip_nil_right, List.mem_singleton, Prod.mk.injEq]
      constructor
      · rintro (h | ⟨rfl, rfl⟩)
        · exact .inl h
        · exact .inr ⟨rfl, h3⟩
      · rintro (h | ⟨rfl, h⟩)
        · exact .inl h
        · exact .inr ⟨rfl, uniq h h3⟩

/-- A block is merged into its only predecessor, whose only successor it is. -/
structure Merge (c c' : Cfg) (cur p : Nat) : Prop where
  cut : Cut c c' cur
  pred : ∀ q, c.graph.Edge q cur ↔ q = p
  succ : ∀ y, c.graph.Edge p y ↔ y = cur
  block : ∀ x, Cfg.block c' x = if x = cur then none else (Cfg.block c x).map (fun is =>
    (if x = p then is ++ blockOf c cur else is).map (relabel cur p))

section
variable {c c' : Cfg} {cur p : Nat}

theorem Merge.ne (h : Merge c c' cur p) : p ≠ cur := by
  rintro rfl
  exact h.cut.loop ((h.pred p).2 rfl)

theorem Merge.isSome (h : Merge c c' cur p) {x : Nat} :
    (Cfg.block c' x).isSome ↔ x ≠ cur ∧ (Cfg.block c x).isSome := by
  rw [h.block]
  split
  · rename_i e; simp [e]
  · rename_i e; simp [e]

theorem Merge.nophi (h : Merge c c' cur p) (v : Inv c) {i : Inst} (hi : i ∈ blockOf c cur) : i.t ≠ .phi := by
  obtain ⟨k, hk⟩ := mem_instAt hi
  exact v.lone (fun q hq => (h.pred q).1 hq) k i hk

theorem Merge.nobranch (h : Merge c c' cur p) (v : Inv c) {i : Inst} (hi : i ∈ blockOf c p) : i.t ≠ .condGoto := by
  intro ht
  obtain ⟨k, hk⟩ := mem_instAt hi
  obtain ⟨-, -, t, f, -, -, -, -, h5, h6, h7, -⟩ := branch_shape v hk ht
  exact h5 (((h.succ t).1 h6).trans ((h.succ f).1 h7).symm)

theorem Merge.relabel_cur (h : Merge c c' cur p) (v : Inv c) :
    (blockOf c cur).map (relabel cur p) = blockOf c cur := by
  conv => rhs; rw [← List.map_id (blockOf c cur)]
  refine List.map_congr_left (fun i hi => ?_)
  rw [relabel_other (h.nophi v hi)]
  rfl

theorem Merge.has (h : Merge c c' cur p) (v : Inv c) : (Cfg.block c p).isSome :=
  v.prog.nodes p (contains_iff.2 (Hist.left ((h.pred p).2 rfl)))

theorem Merge.blockOf_p (h : Merge c c' cur p) (v : Inv c) :
    blockOf c' p = (blockOf c p).map (relabel cur p) ++ blockOf c cur := by
  have hb := block_of_isSome (h.has v)
  have : Cfg.block c' p = some ((blockOf c p ++ blockOf c cur).map (relabel cur p)) := by
    rw [h.block, if_neg h.ne, hb]
    simp
  rw [blockOf_some this, List.map_append, h.relabel_cur v]

theorem Merge.blockOf (h : Merge c c' cur p) {x : Nat} (hx : x ≠ cur) (hp : x ≠ p) :
    blockOf c' x = (Opt.blockOf c x).map (relabel cur p) := by
  simp only [Opt.blockOf, h.block, if_neg hx, if_neg hp]
  cases Cfg.block c x <;> rfl

/-- Where an instruction comes from. -/
def Merge.pos (c : Cfg) (cur p : Nat) (l k : Nat) : Nat × Nat :=
  if l = p ∧ (Opt.blockOf c p).length ≤ k then (cur, k - (Opt.blockOf c p).length) else (l, k)

/-- Where a site goes. -/
def Merge.site (c : Cfg) (cur p : Nat) : Site → Site
  | .inst l k => if l = cur then .inst p ((Opt.blockOf c p).length + k) else .inst l k
  | .phis l => .phis l

theorem Merge.back (h : Merge c c' cur p) (v : Inv c) {l k : Nat} {i' : Inst} (e : instAt c' l k = some i') :
    l ≠ cur ∧ ∃ i, i' = relabel cur p i ∧
      ((l = p ∧ (Opt.blockOf c p).length ≤ k ∧ pos c cur p l k = (cur, k - (Opt.blockOf c p).length) ∧
          instAt c cur (k - (Opt.blockOf c p).length) = some i ∧ i.t ≠ .phi ∧ i' = i) ∨
       ((l = p → k < (Opt.blockOf c p).length) ∧ pos c cur p l k = (l, k) ∧ instAt c l k = some i ∧
          (l = p → i.t ≠ .condGoto))) := by
  have hl : l ≠ cur := by
    rintro rfl
    have := block_of_instAt e
    rw [h.block, if_pos rfl] at this
    cases this
  refine ⟨hl, ?_⟩
  by_cases hp : l = p
  · subst hp
    rw [instAt, h.blockOf_p v] at e
    by_cases hk : k < (Opt.blockOf c l).length
    · rw [List.getElem?_append_left (by simpa using hk), List.getElem?_map] at e
      cases hi : (Opt.blockOf c l)[k]? with
      | none => rw [hi] at e; cases e
      | some i =>
        rw [hi] at e
        simp only [Option.map_some, Option.some.injEq] at e
        refine ⟨i, e.symm, .inr ⟨fun _ => hk, ?_, hi, fun _ => h.nobranch v (List.mem_of_getElem? hi)⟩⟩
        unfold Merge.pos
        rw [if_neg (by omega)]
    · rw [List.getElem?_append_right (by simp; omega)] at e
      simp only [List.length_map] at e
      have hn := h.nophi v (List.mem_of_getElem? e)
      refine ⟨i', (relabel_other hn).symm, .inl ⟨rfl, by omega, ?_, e, hn, rfl⟩⟩
      unfold Merge.pos
      rw [if_pos ⟨rfl, by omega⟩]
  · rw [instAt, h.blockOf hl hp, List.getElem?_map] at e
    cases hi : (Opt.blockOf c l)[k]? with
    | none => rw [hi] at e; cases e
    | some i =>
      rw [hi] at e
      simp only [Option.map_some, Option.some.injEq] at e
      refine ⟨i, e.symm, .inr ⟨fun e => absurd e hp, ?_, hi, fun e => absurd e hp⟩⟩
      simp [Merge.pos, hp]

/-- A phi of the new program. -/
theorem Merge.back_phi (h : Merge c c' cur p) (v : Inv c) {l k : Nat} {i' : Inst} (e : instAt c' l k = some i')
    (ht : i'.t = .phi) : l ≠ cur ∧ ∃ i, i' = relabel cur p i ∧ instAt c l k = some i ∧ i.t = .phi ∧
      (l = p → k < (Opt.blockOf c p).length) ∧ pos c cur p l k = (l, k) := by
  obtain ⟨hl, i, hi, ⟨h1, h2, h3, h4, h5, h6⟩ | ⟨h1, h2, h3, h4⟩⟩ := h.back v e
  · subst h6; exact absurd ht h5
  · refine ⟨hl, i, hi, h3, ?_, h1, h2⟩
    rw [hi, relabel_t.1] at ht
    exact ht

theorem Merge.phi_spec (h : Merge c c' cur p) (v : Inv c) {l k : Nat} {i : Inst} (hl : l ≠ cur)
    (e : instAt c l k = some i) (ht : i.t = .phi) :
    (relabel cur p i).labels.Nodup ∧ (relabel cur p i).labels.length = (relabel cur p i).args.length ∧
    (relabel cur p i).labels.length = i.labels.length ∧
    (∀ x, x ∈ (relabel cur p i).labels ↔ (x ∈ i.labels ∧ x ≠ cur) ∨ (x = p ∧ cur ∈ i.labels)) ∧
    (∀ q a, (q, a) ∈ (relabel cur p i).labels.zip (relabel cur p i).args ↔
      ((q, a) ∈ i.labels.zip i.args ∧ q ≠ cur) ∨ (q = p ∧ (cur, a) ∈ i.labels.zip i.args)) ∧ p ∉ i.labels := by
  have hs := v.prog.wf.shape l k i e
  simp only [Shape, ht] at hs
  have hp : p ∉ i.labels := fun hp => hl ((h.succ l).1 (v.exact l k i e ht p hp))
  obtain ⟨h1, h2, h3, h4, h5⟩ := relabel_phi (cur := cur) ht (v.prog.wf.phiOnce l k i e ht) hs.2 hp
  exact ⟨h1, h2, h3, h4, h5, hp⟩

/-- The edges of the new program. -/
theorem Merge.edge (h : Merge c c' cur p) {a b : Nat} :
    c'.graph.Edge a b ↔ (a ≠ cur ∧ a ≠ p ∧ c.graph.Edge a b) ∨ (a = p ∧ c.graph.Edge cur b) := by
  rw [h.cut.edge, h.pred]
  constructor
  · rintro ⟨h1, h2, h3 | ⟨h3, h4⟩⟩
    · refine .inl ⟨h1, ?_, h3⟩
      rintro rfl
      exact h2 ((h.succ b).1 h3)
    · exact .inr ⟨h3, h4⟩
  · rintro (⟨h1, h2, h3⟩ | ⟨rfl, h3⟩)
    · refine ⟨h1, ?_, .inl h3⟩
      rintro rfl
      exact h2 ((h.pred a).1 h3)
    · refine ⟨h.ne, ?_, .inr ⟨rfl, h3⟩⟩
      rintro rfl
      exact h.cut.loop h3

theorem Merge.length_p (h : Merge c c' cur p) (v : Inv c) :
    (Opt.blockOf c' p).length = (Opt.blockOf c p).length + (Opt.blockOf c cur).length := by
  rw [h.blockOf_p v]; simp

theorem Merge.length (h : Merge c c' cur p) {x : Nat} (hx : x ≠ cur) (hp : x ≠ p) :
    (Opt.blockOf c' x).length = (Opt.blockOf c x).length := by
  rw [h.blockOf hx hp]; simp

theorem Merge.wf (h : Merge c c' cur p) (v : Inv c) : WellFormed c' := by
  have wf := v.prog.wf
  refine ⟨?_, ?_, ?_, ?_, ?_, ?_, ?_, ?_⟩
  · rw [h.cut.keys]; exact wf.labels.filter _
  · rw [h.cut.entry]
    exact h.isSome.2 ⟨fun e => h.cut.ne e.symm, wf.entryBlock⟩
  · intro a b e
    obtain ⟨-, h1, h2 | ⟨-, h2⟩⟩ := (h.cut.edge a b).1 e
    · exact h.isSome.2 ⟨h1, wf.edgeBlock _ _ h2⟩
    · exact h.isSome.2 ⟨h1, wf.edgeBlock _ _ h2⟩
  · intro l k i' e
    obtain ⟨hl, i, hi, ⟨h1, h2, h3, h4, h5, h6⟩ | ⟨h1, h2, h3, h4⟩⟩ := h.back v e
    · rw [h6]; exact wf.shape _ _ _ h4
    · by_cases ht : i.t = .phi
      · have hs := wf.shape _ _ _ h3
        obtain ⟨g1, g2, -⟩ := h.phi_spec v hl h3 ht
        have ht' : i'.t = .phi := by rw [hi, relabel_t.1, ht]
        simp only [Shape, ht] at hs
        simp only [Shape, ht']
        rw [hi]
        exact ⟨by rw [relabel_t.2]; exact hs.1, g2⟩
      · rw [hi, relabel_other ht]
        exact wf.shape _ _ _ h3
  · intro l k i' e ht
    obtain ⟨hl, i, hi, ⟨h1, h2, h3, h4, h5, h6⟩ | ⟨h1, h2, h3, h4⟩⟩ := h.back v e
    · subst h1
      rw [h6] at ht
      have := wf.branchLast _ _ _ h4 ht
      rw [h.length_p v]
      omega
    · rw [hi, relabel_t.1] at ht
      have hp : l ≠ p := fun e => h4 e ht
      rw [h.length hl hp]
      exact wf.branchLast _ _ _ h3 ht
  · intro l k i' e ht y hy
    obtain ⟨hl, i, hi, ⟨h1, h2, h3, h4, h5, h6⟩ | ⟨h1, h2, h3, h4⟩⟩ := h.back v e
    · rw [h6] at ht hy
      exact h.edge.2 (.inr ⟨h1, wf.branchTo _ _ _ h4 ht y hy⟩)
    · have ht' : i.t = .condGoto := by rw [hi, relabel_t.1] at ht; exact ht
      have hp : l ≠ p := fun e => h4 e ht'
      rw [hi, relabel_other (by rw [ht']; decide)] at hy
      exact h.edge.2 (.inl ⟨hl, hp, wf.branchTo _ _ _ h3 ht' y hy⟩)
  · intro l k j i' j' e ht hjk e'
    obtain ⟨hl, i, hi, h1, h2, h3, h4⟩ := h.back_phi v e ht
    obtain ⟨-, i2, hi2, ⟨g1, g2, g3, g4, g5, g6⟩ | ⟨g1, g2, g3, g4⟩⟩ := h.back v e'
    · have := h3 g1
      omega
    · rw [hi2, relabel_t.1]
      exact wf.phiFirst l k j i i2 h1 h2 hjk g3
  · intro l k i' e ht
    obtain ⟨hl, i, hi, h1, h2, h3, h4⟩ := h.back_phi v e ht
    rw [hi]
    exact (h.phi_spec v hl h1 h2).1

/-! ## Strict SSA -/

theorem Merge.settle (h : Merge c c' cur p) (v : Inv c) {ms : List Site} {l k : Nat} (tr : Trail c ms l k)
    (hk : k ≤ (Opt.blockOf c l).length) :
    ∃ ms2, Trail c ms2 (pos c cur p l k).1 (pos c cur p l k).2 ∧ ∀ d ∈ ms2, ∀ x, Defines c d x → d ∈ ms := by
  unfold Merge.pos
  by_cases hp : l = p ∧ (Opt.blockOf c p).length ≤ k
  · rw [if_pos hp]
    obtain ⟨rfl, h2⟩ := hp
    have : k = (Opt.blockOf c l).length := by omega
    subst this
    refine ⟨_, by simpa using Trail.jump tr ((h.succ cur).2 rfl), ?_⟩
    intro d hd x hx
    rcases List.mem_cons.1 hd with rfl | hd
    · obtain ⟨k, i, e, ht, -⟩ := hx
      exact absurd ht (h.nophi v (instAt_mem e))
    · exact hd
  · rw [if_neg hp]
    exact ⟨ms, tr, fun d hd _ _ => hd⟩

theorem Merge.site_id {d : Site} (hd : ∀ k, d ≠ .inst cur k) : site c cur p d = d := by
  cases d with
  | inst l k =>
    have : l ≠ cur := by rintro rfl; exact hd k rfl
    simp [Merge.site, this]
  | phis l => rfl

theorem Merge.trail_ne (h : Merge c c' cur p) {ms : List Site} {l k : Nat} (tr : Trail c' ms l k) : l ≠ cur := by
  induction tr with
  | start => rw [h.cut.entry]; exact fun e => h.cut.ne e.symm
  | inst _ _ ih => exact ih
  | jump _ he _ => exact ((h.cut.edge _ _).1 he).2.1

theorem Merge.trail (h : Merge c c' cur p) (v : Inv c) {ms' : List Site} {l k : Nat} (tr : Trail c' ms' l k) :
    ∃ ms, Trail c ms (pos c cur p l k).1 (pos c cur p l k).2 ∧
      ∀ d ∈ ms, ∀ x, Defines c d x → site c cur p d ∈ ms' := by
  induction tr with
  | start =>
    obtain ⟨ms2, h1, h2⟩ := h.settle v (Trail.start (c := c)) (Nat.zero_le _)
    rw [h.cut.entry]
    exact ⟨ms2, h1, fun d hd x hx => absurd (h2 d hd x hx) (by simp)⟩
  | @inst ms l k tr hk ih =>
    obtain ⟨ms0, h1, h2⟩ := ih
    have hl := h.trail_ne tr
    by_cases hp : l = p ∧ (Opt.blockOf c p).length ≤ k
    · obtain ⟨rfl, hk2⟩ := hp
      have e1 : pos c cur l l k = (cur, k - (Opt.blockOf c l).length) := by
        unfold Merge.pos; rw [if_pos ⟨rfl, hk2⟩]
      have e2 : pos c cur l l (k + 1) = (cur, k - (Opt.blockOf c l).length + 1) := by
        unfold Merge.pos
        rw [if_pos ⟨rfl, by omega⟩, Nat.sub_add_comm hk2]
      rw [e1] at h1
      rw [e2]
      rw [h.length_p v] at hk
      have hk3 : k - (Opt.blockOf c l).length < (Opt.blockOf c cur).length := by omega
      refine ⟨_, .inst h1 hk3, ?_⟩
      intro d hd x hx
      rcases List.mem_cons.1 hd with rfl | hd
      · have : site c cur l (.inst cur (k - (Opt.blockOf c l).length)) = .inst l k := by
          simp only [Merge.site, if_true]
          congr 1
          omega
        rw [this]
        exact List.mem_cons_self
      · exact List.mem_cons_of_mem _ (h2 d hd x hx)
    · have e1 : pos c cur p l k = (l, k) := by
        unfold Merge.pos; rw [if_neg hp]
      rw [e1] at h1
      have hk2 : k < (Opt.blockOf c l).length := by
        by_cases hlp : l = p
        · subst hlp
          have : ¬ (Opt.blockOf c l).length ≤ k := fun hle => hp ⟨rfl, hle⟩
          omega
        · rwa [h.length hl hlp] at hk
      obtain ⟨ms2, h3, h4⟩ := h.settle v (Trail.inst h1 hk2) hk2
      refine ⟨ms2, h3, ?_⟩
      intro d hd x hx
      rcases List.mem_cons.1 (h4 d hd x hx) with rfl | hd'
      · rw [Merge.site_id (by intro k'; simp [hl])]
        exact List.mem_cons_self
      · exact List.mem_cons_of_mem _ (h2 d hd' x hx)
  | @jump ms l y tr he ih =>
    obtain ⟨ms0, h1, h2⟩ := ih
    have hl := h.trail_ne tr
    have key : ∃ z, Trail c ms0 z (Opt.blockOf c z).length ∧ c.graph.Edge z y := by
      by_cases hp : l = p
      · subst hp
        have e1 : pos c cur l l (Opt.blockOf c' l).length = (cur, (Opt.blockOf c cur).length) := by
          unfold Merge.pos
          rw [h.length_p v, if_pos ⟨rfl, by omega⟩, Nat.add_sub_cancel_left]
        rw [e1] at h1
        refine ⟨cur, h1, ?_⟩
        rcases h.edge.1 he with ⟨-, h3, -⟩ | ⟨-, h3⟩
        · exact absurd rfl h3
        · exact h3
      · have e1 : pos c cur p l (Opt.blockOf c' l).length = (l, (Opt.blockOf c l).length) := by
          unfold Merge.pos
          rw [h.length hl hp, if_neg (fun e => hp e.1)]
        rw [e1] at h1
        refine ⟨l, h1, ?_⟩
        rcases h.edge.1 he with ⟨-, -, h3⟩ | ⟨h3, -⟩
        · exact h3
        · exact absurd h3 hp
    obtain ⟨z, h3, h4⟩ := key
    obtain ⟨ms2, h5, h6⟩ := h.settle v (Trail.jump h3 h4) (Nat.zero_le _)
    refine ⟨ms2, h5, ?_⟩
    intro d hd x hx
    rcases List.mem_cons.1 (h6 d hd x hx) with rfl | hd'
    · exact List.mem_cons_self
    · exact List.mem_cons_of_mem _ (h2 d hd' x hx)

theorem Merge.ssa (h : Merge c c' cur p) (v : Inv c) : StrictSSA c' := by
  refine ssa_map v.prog.ssa (pos c cur p) (site c cur p) ?_ ?_ ?_ ?_ ?_
  · intro l k i' e
    obtain ⟨hl, i, hi, ⟨h1, h2, h3, h4, h5, h6⟩ | ⟨h1, h2, h3, h4⟩⟩ := h.back v e
    · rw [h3]
      exact ⟨i, h4, by rw [h6], by rw [h6], fun _ => by rw [h6]⟩
    · rw [h2]
      refine ⟨i, h3, by rw [hi, relabel_t.2], by rw [hi, relabel_t.1], fun hn => by rw [hi, relabel_other hn]⟩
  · intro l k i l2 k2 i2 e e' he
    obtain ⟨hl, -, -, ⟨h1, h2, h3, -⟩ | ⟨h1, h2, -⟩⟩ := h.back v e
    · obtain ⟨hl2, -, -, ⟨g1, g2, g3, -⟩ | ⟨g1, g2, -⟩⟩ := h.back v e'
      · rw [h3, g3] at he
        have := (Prod.mk.inj he).2
        exact ⟨h1.trans g1.symm, by omega⟩
      · rw [h3, g2] at he
        exact absurd (Prod.mk.inj he).1.symm hl2
    · obtain ⟨hl2, -, -, ⟨g1, g2, g3, -⟩ | ⟨g1, g2, -⟩⟩ := h.back v e'
      · rw [h2, g3] at he
        exact absurd (Prod.mk.inj he).1 hl
      · rw [h2, g2] at he
        exact Prod.mk.inj he
  · intro d' x hd
    cases d' with
    | inst l k =>
      obtain ⟨i', e, ht, hx⟩ := hd
      obtain ⟨hl, i, hi, ⟨h1, h2, h3, h4, h5, h6⟩ | ⟨h1, h2, h3, h4⟩⟩ := h.back v e
      · rw [h6] at ht hx
        refine ⟨.inst cur (k - (Opt.blockOf c p).length), ⟨i, h4, ht, hx⟩, ?_⟩
        simp only [Merge.site, if_true, h1]
        congr 1
        omega
      · rw [hi] at ht hx
        rw [relabel_t.1] at ht
        rw [relabel_t.2] at hx
        exact ⟨.inst l k, ⟨i, h3, ht, hx⟩, Merge.site_id (by intro k'; simp [hl])⟩
    | phis l =>
      obtain ⟨k, i', e, ht, hx⟩ := hd
      obtain ⟨hl, i, hi, h1, h2, h3, h4⟩ := h.back_phi v e ht
      rw [hi, relabel_t.2] at hx
      exact ⟨.phis l, ⟨k, i, h1, h2, hx⟩, rfl⟩
  · intro l k i _ _ ms' tr
    exact h.trail v tr
  · intro l k i' e ht q a hqa
    obtain ⟨hl, i, hi, h1, h2, h3, h4⟩ := h.back_phi v e ht
    obtain ⟨-, -, -, -, h5, h6⟩ := h.phi_spec v hl h1 h2
    rw [hi] at hqa
    rcases (h5 q a).1 hqa with ⟨h7, h8⟩ | ⟨rfl, h7⟩
    · refine ⟨q, l, k, i, h1, h2, h7, ?_⟩
      intro ms' tr
      obtain ⟨ms, h9, h10⟩ := h.trail v tr
      have hqp : q ≠ p := by
        rintro rfl
        exact h6 (List.of_mem_zip h7).1
      have e1 : pos c cur p q (Opt.blockOf c' q).length = (q, (Opt.blockOf c q).length) := by
        unfold Merge.pos
        rw [h.length h8 hqp, if_neg (fun e => hqp e.1)]
      rw [e1] at h9
      exact ⟨ms, h9, h10⟩
    · refine ⟨cur, l, k, i, h1, h2, h7, ?_⟩
      intro ms' tr
      obtain ⟨ms, h9, h10⟩ := h.trail v tr
      have e1 : pos c cur q q (Opt.blockOf c' q).length = (cur, (Opt.blockOf c cur).length) := by
        unfold Merge.pos
        rw [h.length_p v, if_pos ⟨rfl, by omega⟩, Nat.add_sub_cancel_left]
      rw [e1] at h9
      exact ⟨ms, h9, h10⟩

/-- What may vanish in the new program may in the old one; if the two blocks that became one may, both may. -/
theorem Merge.hollow (h : Merge c c' cur p) (v : Inv c) {x : Nat} (hx : x ≠ cur) (hh : Hollow c' x) :
    Hollow c x ∧ (x = p → Hollow c cur) := by
  induction hh with
  | @empty x hb =>
    by_cases hp : x = p
    · subst hp
      rw [h.blockOf_p v, List.append_eq_nil_iff, List.map_eq_nil_iff] at hb
      exact ⟨.empty hb.1, fun _ => .empty hb.2⟩
    · rw [h.blockOf hx hp, List.map_eq_nil_iff] at hb
      exact ⟨.empty hb, fun e => absurd e hp⟩
  | @fork x d i hb ht he _ ih =>
    have ih := ih ((h.cut.edge _ _).1 he).2.1
    rcases h.edge.1 he with ⟨h1, h2, h3⟩ | ⟨rfl, h3⟩
    · refine ⟨?_, fun e => absurd e h2⟩
      rw [h.blockOf h1 h2] at hb
      obtain ⟨j, hj, rfl⟩ := List.map_eq_singleton_iff.1 hb
      rw [relabel_t.1] at ht
      exact .fork hj ht h3 ih.1
    · rw [h.blockOf_p v, List.append_eq_singleton_iff, List.map_eq_nil_iff] at hb
      rcases hb with ⟨h4, h5⟩ | ⟨h4, h5⟩
      · exact ⟨.empty h4, fun _ => .fork h5 ht h3 ih.1⟩
      · obtain ⟨j, hj, rfl⟩ := List.map_eq_singleton_iff.1 h4
        rw [relabel_t.1] at ht
        exact absurd ht (h.nobranch v (by rw [hj]; simp))

theorem Merge.chain (h : Merge c c' cur p) (v : Inv c) {b q : Nat} (hc : Chain c' b q) :
    Chain c (if b = p then cur else b) (if q = p then cur else q) := by
  induction hc with
  | refl => exact .refl
  | @step b d q e hd _ ih =>
    obtain ⟨hd1, hd2⟩ := h.hollow v ((h.cut.edge _ _).1 e).2.1 hd
    have from_d : Chain c d (if q = p then cur else q) := by
      by_cases hp : d = p
      · subst hp
        rw [if_pos rfl] at ih
        exact .step ((h.succ cur).2 rfl) (hd2 rfl) ih
      · rwa [if_neg hp] at ih
    rcases h.edge.1 e with ⟨h1, h2, h3⟩ | ⟨rfl, h3⟩
    · rw [if_neg h2]
      exact .step h3 hd1 from_d
    · rw [if_pos rfl]
      exact .step h3 hd1 from_d

theorem Merge.inv (h : Merge c c' cur p) (v : Inv c) : Inv c' := by
  refine ⟨⟨h.cut.hist, h.wf v, h.ssa v, h.cut.reach v.prog.reach (fun x hx => h.isSome.1 hx), ?_, ?_, ?_, ?_⟩,
    ?_, ?_, ?_, ?_, ?_⟩
  · intro k i' e ht
    obtain ⟨hl, i, hi, h1, h2, -⟩ := h.back_phi v e ht
    rw [h.cut.entry] at h1
    exact v.prog.entry k i h1 h2
  · intro l k i' e ht q hq
    obtain ⟨hl, i, hi, h1, h2, -⟩ := h.back_phi v e ht
    obtain ⟨-, -, -, h4, -⟩ := h.phi_spec v hl h1 h2
    rw [hi, h4]
    rcases h.edge.1 hq with ⟨h5, h6, h7⟩ | ⟨rfl, h7⟩
    · exact .inl ⟨v.prog.cover l k i h1 h2 q h7, h5⟩
    · exact .inr ⟨rfl, v.prog.cover l k i h1 h2 cur h7⟩
  · intro l hl
    obtain ⟨h1, h2⟩ := (h.cut.nodes l).1 (contains_iff.1 hl)
    exact h.isSome.2 ⟨h2, v.prog.nodes l (contains_iff.2 h1)⟩
  · intro l k i' e ht y hy
    obtain ⟨hl, i, hi, ⟨h1, h2, h3, h4, h5, h6⟩ | ⟨h1, h2, h3, h4⟩⟩ := h.back v e
    · rw [h6] at ht ⊢
      rcases h.edge.1 hy with ⟨-, h7, -⟩ | ⟨-, h7⟩
      · exact absurd h1 h7
      · exact v.prog.taken _ _ _ h4 ht y h7
    · have ht' : i.t = .condGoto := by rw [hi, relabel_t.1] at ht; exact ht
      rw [hi, relabel_other (by rw [ht']; decide)]
      rcases h.edge.1 hy with ⟨-, -, h7⟩ | ⟨h7, -⟩
      · exact v.prog.taken _ _ _ h3 ht' y h7
      · exact absurd ht' (h4 h7)
  · intro l k i' e ht q hq
    obtain ⟨hl, i, hi, h1, h2, -⟩ := h.back_phi v e ht
    obtain ⟨-, -, -, h4, -, h5⟩ := h.phi_spec v hl h1 h2
    rw [hi, h4] at hq
    rcases hq with ⟨h6, h7⟩ | ⟨rfl, h6⟩
    · refine h.edge.2 (.inl ⟨h7, ?_, v.exact l k i h1 h2 q h6⟩)
      rintro rfl
      exact h5 h6
    · exact h.edge.2 (.inr ⟨rfl, v.exact l k i h1 h2 cur h6⟩)
  · intro l k i' e ht
    obtain ⟨hl, i, hi, ⟨h1, h2, h3, h4, h5, h6⟩ | ⟨h1, h2, h3, h4⟩⟩ := h.back v e
    · rw [h6] at ht ⊢
      exact v.forks _ _ _ h4 ht
    · have ht' : i.t = .condGoto := by rw [hi, relabel_t.1] at ht; exact ht
      rw [hi, relabel_other (by rw [ht']; decide)]
      exact v.forks _ _ _ h3 ht'
  · intro l hpl a b ha hb
    rcases h.edge.1 ha with ⟨h1, h2, h3⟩ | ⟨rfl, h3⟩
    · rcases h.edge.1 hb with ⟨-, -, h4⟩ | ⟨h4, -⟩
      · refine v.only l (fun k i e ht => ?_) a b h3 h4
        refine hpl k (relabel cur p i) ?_ (by rw [relabel_t.1]; exact ht)
        rw [instAt, h.blockOf h1 h2, List.getElem?_map]
        rw [instAt] at e
        rw [e]
        rfl
      · exact absurd h4 h2
    · rcases h.edge.1 hb with ⟨-, h4, -⟩ | ⟨-, h4⟩
      · exact absurd rfl h4
      · refine v.only cur (fun k i e ht => ?_) a b h3 h4
        refine hpl ((Opt.blockOf c l).length + k) i ?_ ht
        rw [instAt, h.blockOf_p v, List.getElem?_append_right (by simp)]
        rw [instAt] at e
        simpa using e
  · intro l k i' e ht b
    obtain ⟨hl, i, hi, h1, h2, -⟩ := h.back_phi v e ht
    obtain ⟨-, -, -, h4, h5, h6⟩ := h.phi_spec v hl h1 h2
    rw [hi]
    obtain ⟨⟨q, hq, hn⟩, hr⟩ := v.race l k i h1 h2 (if b = p then cur else b)
    constructor
    · by_cases hqc : q = cur
      · refine ⟨p, (h4 p).2 (.inr ⟨rfl, hqc ▸ hq⟩), fun hc => hn ?_⟩
        have := h.chain v hc
        rw [if_pos rfl] at this
        rwa [hqc]
      · refine ⟨q, (h4 q).2 (.inl ⟨hq, hqc⟩), fun hc => hn ?_⟩
        have := h.chain v hc
        rwa [if_neg (fun e : q = p => h6 (e ▸ hq))] at this
    · have old : ∀ q x, (q, x) ∈ (relabel cur p i).labels.zip (relabel cur p i).args → Chain c' b q →
          (if q = p then cur else q, x) ∈ i.labels.zip i.args ∧
            Chain c (if b = p then cur else b) (if q = p then cur else q) := by
        intro q x hqx hc
        refine ⟨?_, h.chain v hc⟩
        rcases (h5 q x).1 hqx with ⟨h7, h8⟩ | ⟨rfl, h7⟩
        · rw [if_neg (fun e : q = p => h6 (e ▸ (List.of_mem_zip h7).1))]
          exact h7
        · rw [if_pos rfl]
          exact h7
      intro q x q2 y hqx hqy hcq hcq2
      obtain ⟨h7, h8⟩ := old q x hqx hcq
      obtain ⟨h9, h10⟩ := old q2 y hqy hcq2
      exact hr _ _ _ _ h7 h9 h8 h10
  · intro h0 hh l k i' e ht q hq hc
    obtain ⟨hl, i, hi, h1, h2, -⟩ := h.back_phi v e ht
    rw [h.cut.entry] at h0
    obtain ⟨hh1, hh2⟩ := h.hollow v (fun e => h.cut.ne (e.symm.trans h0.symm)) hh
    have hc1 := h.chain v hc
    have hc2 : Chain c 0 (if q = p then cur else q) := by
      by_cases hp : 0 = p
      · rw [if_pos hp] at hc1
        exact .step (hp ▸ (h.succ cur).2 rfl) (hh2 hp) hc1
      · rwa [if_neg hp] at hc1
    refine v.apart h0 hh1 l k i h1 h2 _ ?_ hc2
    rcases h.edge.1 hq with ⟨h5, h6, h7⟩ | ⟨rfl, h7⟩
    · rwa [if_neg h6]
    · rwa [if_pos rfl]

/-! ## Runs -/

variable {V W : Type} {I : Interp V W}

theorem exec_relabel {is : List Inst} : ∀ {x : (Nat → V) × W},
    execAll I (is.map (relabel cur p)) x = execAll I is x := by
  induction is with
  | nil => intro x; rfl
  | cons i is ih =>
    intro x
    simp only [execAll, List.map_cons, List.foldl_cons] at ih ⊢
    have : exec I (relabel cur p i) x = exec I i x := by
      by_cases ht : i.t = .phi
      · rw [exec_phi I x ht, exec_phi I x (by rw [relabel_t.1]; exact ht)]
      · rw [relabel_other ht]
    rw [this]
    exact ih

theorem enter_relabel {is : List Inst} {src : Nat → V} {q q' : Nat}
    (hi : ∀ i ∈ is, i.t = .phi → ((relabel cur p i).labels.zip (relabel cur p i).args).lookup q' =
      (i.labels.zip i.args).lookup q) :
    ∀ {e : Nat → V}, enter I src q' (is.map (relabel cur p)) e = enter I src q is e := by
  induction is with
  | nil => intro e; rfl
  | cons i is ih =>
    intro e
    simp only [List.map_cons, enter, relabel_t.1, relabel_t.2]
    rw [ih (fun j hj => hi j (by simp [hj]))]
    by_cases ht : i.t = .phi
    · rw [if_pos ht, if_pos ht, hi i (by simp) ht]
    · rw [if_neg ht, if_neg ht]

/-- Coming from `q` in the new program is like coming from `q0` in the old one. -/
theorem Merge.lookup (h : Merge c c' cur p) (v : Inv c) {l k : Nat} {i : Inst} (hl : l ≠ cur)
    (e : instAt c l k = some i) (ht : i.t = .phi) {q q' : Nat}
    (hq : (q' = q ∧ q ≠ cur ∧ q ≠ p) ∨ (q' = p ∧ q = cur)) :
    ((relabel cur p i).labels.zip (relabel cur p i).args).lookup q' = (i.labels.zip i.args).lookup q := by
  obtain ⟨h1, h2, -, -, h5, h6⟩ := h.phi_spec v hl e ht
  have hs := v.prog.wf.shape l k i e
  simp only [Shape, ht] at hs
  have hk : ((i.labels.zip i.args).map (·.1)).Nodup := by
    rw [map_fst_zip' hs.2]; exact v.prog.wf.phiOnce l k i e ht
  have hk' : (((relabel cur p i).labels.zip (relabel cur p i).args).map (·.1)).Nodup := by
    rw [map_fst_zip' h2]; exact h1
  have key : ∀ a, (q', a) ∈ (relabel cur p i).labels.zip (relabel cur p i).args ↔ (q, a) ∈ i.labels.zip i.args := by
    intro a
    rw [h5]
    rcases hq with ⟨rfl, h7, h8⟩ | ⟨rfl, rfl⟩
    · constructor
      · rintro (⟨h, -⟩ | ⟨rfl, -⟩)
        · exact h
        · exact absurd rfl h8
      · exact fun h => .inl ⟨h, h7⟩
    · constructor
      · rintro (⟨h, -⟩ | ⟨-, h⟩)
        · exact absurd (List.of_mem_zip h).1 h6
        · exact h
      · exact fun h => .inr ⟨rfl, h⟩
  cases e1 : (i.labels.zip i.args).lookup q with
  | some a => exact (mem_lookup hk').1 ((key a).2 ((mem_lookup hk).2 e1))
  | none =>
    cases e2 : ((relabel cur p i).labels.zip (relabel cur p i).args).lookup q' with
    | none => rfl
    | some a =>
      have := (mem_lookup hk).1 ((key a).1 ((mem_lookup hk').2 e2))
      rw [e1] at this
      cases this

theorem Merge.enter (h : Merge c c' cur p) (v : Inv c) {n : Nat} (hn : n ≠ cur) {q q' : Nat}
    (hq : (q' = q ∧ q ≠ cur ∧ q ≠ p) ∨ (q' = p ∧ q = cur)) (src e : Nat → V) :
    Opt.enter I src q' (Opt.blockOf c' n) e = Opt.enter I src q (Opt.blockOf c n) e := by
  have key : ∀ i ∈ Opt.blockOf c n, i.t = .phi → ((relabel cur p i).labels.zip (relabel cur p i).args).lookup q' =
      (i.labels.zip i.args).lookup q := by
    intro i hi ht
    obtain ⟨k, hk⟩ := mem_instAt hi
    exact h.lookup v hn hk ht hq
  by_cases hp : n = p
  · subst hp
    rw [h.blockOf_p v, enter_append, enter_nophi (fun i hi => h.nophi v hi), enter_relabel key]
  · rw [h.blockOf hn hp, enter_relabel key]

theorem next_same_plain {c c' : Cfg} (w : WF c.graph) (w' : WF c'.graph) {l l' : Nat} {is is' : List Inst}
    (h : ∀ i ∈ is, i.t ≠ .condGoto) (h' : ∀ i ∈ is', i.t ≠ .condGoto)
    (he : ∀ y, c'.graph.Edge l' y ↔ c.graph.Edge l y) (e : Nat → V) :
    Opt.next I c' l' is' e = Opt.next I c l is e := by
  rw [next_plain h, next_plain h']
  have hperm : (c'.graph.children l').Perm (c.graph.children l) :=
    (List.perm_ext_iff_of_nodup (w'.ncs l') (w.ncs l)).2 he
  match hc : c.graph.children l with
  | [] =>
    rw [hc] at hperm
    rw [List.Perm.eq_nil hperm]
  | [s] =>
    rw [hc] at hperm
    rw [List.perm_singleton.1 hperm]
  | a :: b :: r =>
    rw [hc] at hperm
    have hlen := hperm.length_eq
    match hc' : c'.graph.children l' with
    | [] => rfl
    | [s] => rw [hc'] at hlen; cases hlen
    | _ :: _ :: _ => rfl

theorem next_same {c c' : Cfg} (v : Inv c) (w' : WF c'.graph) {l l' : Nat} {pre : List Inst}
    (hpre : ∀ i ∈ pre, i.t ≠ .condGoto)
    (he : ∀ y, c'.graph.Edge l' y ↔ c.graph.Edge l y) (e : Nat → V) :
    Opt.next I c' l' (pre ++ (Opt.blockOf c l).map (relabel cur p)) e = Opt.next I c l (Opt.blockOf c l) e := by
  by_cases hp : ∀ i ∈ Opt.blockOf c l, i.t ≠ .condGoto
  · refine next_same_plain v.hist.wf w' hp ?_ he e
    intro i hi
    rcases List.mem_append.1 hi with hi | hi
    · exact hpre i hi
    · obtain ⟨j, hj, rfl⟩ := List.mem_map.1 hi
      rw [relabel_t.1]
      exact hp j hj
  · have : ∃ i ∈ Opt.blockOf c l, i.t = .condGoto := by simpa using hp
    obtain ⟨i, hi, ht⟩ := this
    obtain ⟨k, hk⟩ := mem_instAt hi
    obtain ⟨is, a, t, f, g1, g2, g3, g4, -⟩ := branch_shape v hk ht
    rw [g1, List.map_append, ← List.append_assoc]
    have hr : [i].map (relabel cur p) = [i] := by
      rw [List.map_singleton, relabel_other (by rw [ht]; decide)]
    rw [hr, next_branch ht g3 g4, next_branch ht g3 g4]

theorem Merge.skips (h : Merge c c' cur p) (v : Inv c) : Skips c c' := by
  have w' := h.cut.hist.wf
  refine skips_of (fun x' x => x' = x ∧ x.at_ ≠ some cur) ?_ ?_ ?_
  · intro V W I e w
    refine ⟨0, ?_, ?_⟩
    · simp only [Opt.run, h.cut.entry]
    · simp only [Opt.run, ne_eq, Option.some.injEq]
      exact fun e => h.cut.ne e.symm
  · rintro V W I x' x ⟨rfl, hx⟩
    obtain ⟨at_, env, world⟩ := x'
    cases at_ with
    | none => exact ⟨0, rfl, by simp [steps, Opt.step]⟩
    | some l =>
      have hl : l ≠ cur := fun e => hx (by rw [e])
      by_cases hp : l = p
      · subst hp
        have hpl : ∀ i ∈ Opt.blockOf c l, i.t ≠ .condGoto := fun i hi => h.nobranch v hi
        generalize hs1 : execAll I (Opt.blockOf c l) (env, world) = s1
        generalize hs2 : execAll I (Opt.blockOf c cur) s1 = s2
        have hn1 : Opt.next I c l (Opt.blockOf c l) s1.1 = some cur := next_edge_plain v.hist.wf hpl h.succ _
        have hex : execAll I (Opt.blockOf c' l) (env, world) = s2 := by
          rw [h.blockOf_p v, execAll_append, exec_relabel, hs1, hs2]
        have hn2 : Opt.next I c' l (Opt.blockOf c' l) s2.1 = Opt.next I c cur (Opt.blockOf c cur) s2.1 := by
          rw [h.blockOf_p v]
          conv => lhs; rw [← h.relabel_cur v]
          refine next_same v w' ?_ ?_ _
          · intro i hi
            obtain ⟨j, hj, rfl⟩ := List.mem_map.1 hi
            rw [relabel_t.1]
            exact hpl j hj
          · intro y
            rw [h.edge]
            constructor
            · rintro (⟨-, h3, -⟩ | ⟨-, h3⟩)
              · exact absurd rfl h3
              · exact h3
            · exact fun h3 => .inr ⟨rfl, h3⟩
        refine ⟨1, ?_⟩
        simp only [steps]
        rw [step_to hs1 hn1, enter_nophi (is := Opt.blockOf c cur) (fun i hi => h.nophi v hi)]
        cases hn3 : Opt.next I c cur (Opt.blockOf c cur) s2.1 with
        | none =>
          rw [step_end hex (hn2.trans hn3), step_end hs2 hn3]
          exact ⟨rfl, by simp⟩
        | some n =>
          have hnc : n ≠ cur := by
            rintro rfl
            exact h.cut.loop (next_edge v.prog.wf hn3)
          rw [step_to hex (hn2.trans hn3), step_to hs2 hn3, h.enter v hnc (.inr ⟨rfl, rfl⟩)]
          exact ⟨rfl, by simpa using hnc⟩
      · have hex : execAll I (Opt.blockOf c' l) (env, world) = execAll I (Opt.blockOf c l) (env, world) := by
          rw [h.blockOf hl hp, exec_relabel]
        generalize hs1 : execAll I (Opt.blockOf c l) (env, world) = s1 at hex
        have hn2 : Opt.next I c' l (Opt.blockOf c' l) s1.1 = Opt.next I c l (Opt.blockOf c l) s1.1 := by
          rw [h.blockOf hl hp]
          refine next_same (pre := []) v w' (by simp) ?_ _
          intro y
          rw [h.edge]
          constructor
          · rintro (⟨-, -, h3⟩ | ⟨h3, -⟩)
            · exact h3
            · exact absurd h3 hp
          · exact fun h3 => .inl ⟨hl, hp, h3⟩
        refine ⟨0, ?_⟩
        simp only [steps]
        cases hn3 : Opt.next I c l (Opt.blockOf c l) s1.1 with
        | none =>
          rw [step_end hex (hn2.trans hn3), step_end hs1 hn3]
          exact ⟨rfl, by simp⟩
        | some n =>
          have hnc : n ≠ cur := by
            rintro rfl
            exact hp ((h.pred l).1 (next_edge v.prog.wf hn3))
          rw [step_to hex (hn2.trans hn3), step_to hs1 hn3, h.enter v hnc (.inl ⟨rfl, hl, hp⟩)]
          exact ⟨rfl, by simpa using hnc⟩
  · rintro V W x' x ⟨rfl, -⟩
    exact ⟨Iff.rfl, rfl⟩

end

end Verif.Prune
