import Verif.Prune.Leaves
/-!
# The loops that make the empty leaves one
-/

namespace Verif.Prune

open Verif.Il Verif.Graph Verif.Opt Verif.Ssa

/-- The block ends with a branch. -/
def Branches (is : List Inst) : Prop := ∃ i ∈ is, i.t = .condGoto

instance (is : List Inst) : Decidable (Branches is) := inferInstanceAs (Decidable (∃ i ∈ is, i.t = .condGoto))

theorem block_keys {c : Cfg} {l : Nat} : l ∈ c.bblocks.map (·.1) ↔ ∃ is, Cfg.block c l = some is := by
  rw [← Option.isSome_iff_exists, ← lookup_isSome_iff]
  rfl

/-- One edge is moved. -/
theorem move_edge {g : Graph} (h : Hist g) {l k first : Nat} (hl : l ∈ g.labels) (hk : k ∈ g.labels)
    (hf : first ∈ g.labels) :
    ∃ g1, g.disconnect l k = some g1 ∧ Hist (g1.connect l first) ∧
      (∀ x, x ∈ (g1.connect l first).labels ↔ x ∈ g.labels) ∧
      ∀ a b, (g1.connect l first).Edge a b ↔ (g.Edge a b ∧ ¬ (a = l ∧ b = k)) ∨ (a = l ∧ b = first) := by
  obtain ⟨g1, e1, i1, l1, d1⟩ := disc h hl hk
  refine ⟨g1, e1, i1.apply (op := .connect l first) rfl, ?_, ?_⟩
  · intro x
    rw [mem_labels_connect, l1]
    constructor
    · rintro (h | rfl | rfl)
      · exact h
      · exact hl
      · exact hf
    · exact .inl
  · intro a b
    rw [connect_edge, d1]

/-- The edges of a branch are moved. -/
theorem move_edges {g : Graph} (h : Hist g) {ls : List Nat} {l t f first : Nat} (hmem : first ∈ ls) (htf : t ≠ f)
    (hls : ∀ x ∈ ls, x ∈ g.labels) (hl : l ∈ g.labels) (hy : ∀ y, g.Edge l y ↔ y = t ∨ y = f) :
    ∃ g1, [t, f].foldlM (fun (g : Graph) (k : Nat) =>
        if ls.contains k then do
          let g ← g.disconnect l k
          some (g.connect l first)
        else some g) g = some g1 ∧ Hist g1 ∧ (∀ x, x ∈ g1.labels ↔ x ∈ g.labels) ∧
      ∀ a b, g1.Edge a b ↔ if a = l then ∃ k, g.Edge l k ∧ low ls first k = b else g.Edge a b := by
  have hfl := hls first hmem
  have key : ∀ {g1 : Graph}, (∀ a b, a ≠ l → (g1.Edge a b ↔ g.Edge a b)) →
      (∀ b, g1.Edge l b ↔ b = low ls first t ∨ b = low ls first f) →
      ∀ a b, g1.Edge a b ↔ if a = l then ∃ k, g.Edge l k ∧ low ls first k = b else g.Edge a b := by
    intro g1 h1 h2 a b
    by_cases ha : a = l
    · subst ha
      rw [if_pos rfl, h2]
      constructor
      · rintro (rfl | rfl)
        · exact ⟨t, (hy t).2 (.inl rfl), rfl⟩
        · exact ⟨f, (hy f).2 (.inr rfl), rfl⟩
      · rintro ⟨k, hk, rfl⟩
        rcases (hy k).1 hk with rfl | rfl
        · exact .inl rfl
        · exact .inr rfl
    · rw [if_neg ha, h1 a b ha]
  by_cases ht : t ∈ ls
  · obtain ⟨g1, e1, i1, l1, d1⟩ := move_edge h hl (hls t ht) hfl
    by_cases hf : f ∈ ls
    · obtain ⟨g2, e2, i2, l2, d2⟩ := move_edge (l := l) (k := f) i1 ((l1 l).2 hl) ((l1 f).2 (hls f hf)) ((l1 _).2 hfl)
      refine ⟨_, ?_, i2, fun x => (l2 x).trans (l1 x), key ?_ ?_⟩
      · simp [List.foldlM, ht, hf, e1, e2]
      · intro a b ha
        rw [d2, d1]
        simp [ha]
      · intro b
        rw [d2, d1, hy, low_in ht, low_in hf]
        simp only [true_and, or_self]
        constructor
        · rintro (⟨⟨rfl | rfl, h2⟩ | rfl, h3⟩ | rfl)
          · exact absurd rfl h2
          · exact absurd rfl h3
          · rfl
          · rfl
        · exact .inr
    · refine ⟨_, ?_, i1, l1, key ?_ ?_⟩
      · simp [List.foldlM, ht, hf, e1]
      · intro a b ha
        rw [d1]
        simp [ha]
      · intro b
        rw [d1, hy, low_in ht, low_out hf]
        simp only [true_and]
        constructor
        · rintro (⟨rfl | rfl, h2⟩ | rfl)
          · exact absurd rfl h2
          · exact .inr rfl
          · exact .inl rfl
        · rintro (rfl | rfl)
          · exact .inr rfl
          · exact .inl ⟨.inr rfl, fun e => htf e.symm⟩
  · by_cases hf : f ∈ ls
    · obtain ⟨g2, e2, i2, l2, d2⟩ := move_edge (l := l) (k := f) h hl (hls f hf) hfl
      refine ⟨_, ?_, i2, l2, key ?_ ?_⟩
      · simp [List.foldlM, ht, hf, e2]
      · intro a b ha
        rw [d2]
        simp [ha]
      · intro b
        rw [d2, hy, low_out ht, low_in hf]
        simp only [true_and]
        constructor
        · rintro (⟨rfl | rfl, h2⟩ | rfl)
          · exact .inl rfl
          · exact absurd rfl h2
          · exact .inr rfl
        · rintro (rfl | rfl)
          · exact .inl ⟨.inl rfl, htf⟩
          · exact .inr rfl
    · refine ⟨g, ?_, h, fun _ => Iff.rfl, key (fun _ _ _ => Iff.rfl) ?_⟩
      · simp [List.foldlM, ht, hf]
      · intro b
        rw [hy, low_out ht, low_out hf]

theorem setBlock_self {c : Cfg} {l : Nat} {is : List Inst} (h : Cfg.block c l = some is) (x : Nat) :
    Cfg.block c x = if x = l then some is else Cfg.block c x := by
  split
  · rename_i e; rw [e, h]
  · rfl

/-- One turn of the loop over the blocks. -/
theorem mergeBranch_ok {c0 c : Cfg} (v : Inv c0) {ls : List Nat} {first l : Nat} (hmem : first ∈ ls)
    (h : Hist c.graph) (hlab : ∀ x, x ∈ c.graph.labels ↔ x ∈ c0.graph.labels) (hls : ∀ x ∈ ls, x ∈ c0.graph.labels)
    (hb : Cfg.block c l = Cfg.block c0 l) (hs : (Cfg.block c0 l).isSome)
    (he : ∀ y, c.graph.Edge l y ↔ c0.graph.Edge l y) :
    ∃ c1, mergeBranch ls first c l = some c1 ∧ Hist c1.graph ∧ c1.entry = c.entry ∧
      (∀ x, x ∈ c1.graph.labels ↔ x ∈ c0.graph.labels) ∧ c1.bblocks.map (·.1) = c.bblocks.map (·.1) ∧
      (∀ a b, c1.graph.Edge a b ↔ if a = l ∧ Branches (blockOf c0 l) then ∃ k, c0.graph.Edge l k ∧ low ls first k = b
        else c.graph.Edge a b) ∧
      ∀ x, Cfg.block c1 x = if x = l then some (aim (low ls first) (blockOf c0 l)) else Cfg.block c x := by
  have hb0 := block_of_isSome hs
  by_cases hp : ∀ i ∈ blockOf c0 l, i.t ≠ .condGoto
  · refine ⟨c, ?_, h, rfl, hlab, rfl, ?_, ?_⟩
    · simp only [mergeBranch, hb, hb0, Option.bind_eq_bind, Option.bind_some]
      cases hg : (blockOf c0 l).getLast? with
      | none => rfl
      | some i => simp only; rw [if_pos (hp i (List.mem_of_getLast? hg))]
    · intro a b
      rw [if_neg]
      rintro ⟨-, i, hi, ht⟩
      exact hp i hi ht
    · rw [aim_plain hp]
      exact setBlock_self (hb.trans hb0)
  · have : ∃ i ∈ blockOf c0 l, i.t = .condGoto := by simpa using hp
    obtain ⟨i, hi, ht⟩ := this
    have hbr : Branches (blockOf c0 l) := ⟨i, hi, ht⟩
    obtain ⟨k, hk⟩ := mem_instAt hi
    obtain ⟨is, a, t, f, h1, h2, h3, h4, h5, h6, h7, h8, h9⟩ := branch_shape v hk ht
    have hy : ∀ y, c.graph.Edge l y ↔ y = t ∨ y = f := by
      intro y
      rw [he]
      refine ⟨h8 y, ?_⟩
      rintro (rfl | rfl)
      · exact h6
      · exact h7
    obtain ⟨g1, e1, i1, l1, d1⟩ := move_edges h hmem h5 (fun x hx => (hlab x).2 (hls x hx))
      ((hlab l).2 (Hist.left h6)) hy
    have hall : i.labels.all (fun k => ls.contains k) = true ↔ low ls first t = low ls first f := by
      rw [h4]
      simp only [List.all_cons, List.all_nil, Bool.and_true, Bool.and_eq_true, List.contains_iff_mem]
      constructor
      · rintro ⟨h1, h2⟩
        rw [low_in h1, low_in h2]
      · intro e
        by_cases h1 : t ∈ ls
        · refine ⟨h1, Classical.byContradiction (fun h2 => ?_)⟩
          rw [low_out h2, low_eq hmem h2] at e
          exact h5 e
        · rw [low_out h1, eq_comm, low_eq hmem h1] at e
          exact absurd e.symm h5
    have hmap : i.labels.map (fun k => if ls.contains k then first else k) = [low ls first t, low ls first f] := by
      rw [h4]
      simp [low]
    have hfin : mergeBranch ls first c l = some (setBlock { c with graph := g1 } l (aim (low ls first) (blockOf c0 l))) := by
      have hgl : (blockOf c0 l).getLast? = some i := by rw [h1]; simp
      have hdl : (blockOf c0 l).dropLast = is := by rw [h1]; simp
      simp only [mergeBranch, hb, hb0, Option.bind_eq_bind, Option.bind_some, hgl, ht, ne_eq, not_true_eq_false,
        if_false, hdl, hmap]
      rw [h4] at hall ⊢
      simp only [Option.bind_eq_bind] at e1
      rw [e1]
      simp only [Option.bind_some]
      rw [h1, aim_branch ht h4]
      by_cases hx : low ls first t = low ls first f
      · rw [if_pos (hall.2 hx), if_pos hx]
      · rw [if_neg (fun h => hx (hall.1 h)), if_neg hx, ← ht]
    refine ⟨_, hfin, i1, rfl, fun x => (l1 x).trans (hlab x), keys_setBlock, ?_, ?_⟩
    · intro a b
      refine (d1 a b).trans ?_
      by_cases ha : a = l
      · rw [if_pos ha, if_pos ⟨ha, hbr⟩]
        simp only [he]
      · rw [if_neg ha, if_neg (fun h => ha h.1)]
    · intro x
      rw [Ssa.block_setBlock]
      have hx : (Cfg.block { c with graph := g1 } l).isSome = true := by
        show (Cfg.block c l).isSome = true
        rw [hb]; exact hs
      by_cases e : x = l
      · subst e
        obtain ⟨js, hjs⟩ := Option.isSome_iff_exists.1 hx
        rw [if_pos rfl, if_pos rfl, hjs]
        rfl
      · rw [if_neg e, if_neg e]
        rfl

/-- The loop over the blocks. -/
theorem mergeBranches_ok {c0 : Cfg} (v : Inv c0) {ls : List Nat} {first : Nat} (hmem : first ∈ ls)
    (hls : ∀ x ∈ ls, x ∈ c0.graph.labels) : ∀ {xs : List Nat} {c : Cfg}, xs.Nodup →
    Hist c.graph → (∀ x, x ∈ c.graph.labels ↔ x ∈ c0.graph.labels) →
    (∀ l ∈ xs, Cfg.block c l = Cfg.block c0 l ∧ (Cfg.block c0 l).isSome ∧ ∀ y, c.graph.Edge l y ↔ c0.graph.Edge l y) →
    ∃ c1, xs.foldlM (mergeBranch ls first) c = some c1 ∧ Hist c1.graph ∧ c1.entry = c.entry ∧
      (∀ x, x ∈ c1.graph.labels ↔ x ∈ c0.graph.labels) ∧ c1.bblocks.map (·.1) = c.bblocks.map (·.1) ∧
      (∀ a b, c1.graph.Edge a b ↔ if a ∈ xs ∧ Branches (blockOf c0 a) then ∃ k, c0.graph.Edge a k ∧ low ls first k = b
        else c.graph.Edge a b) ∧
      ∀ x, Cfg.block c1 x = if x ∈ xs then some (aim (low ls first) (blockOf c0 x)) else Cfg.block c x
  | [], c, _, h, h1, _ => ⟨c, rfl, h, rfl, h1, rfl, by simp, by simp⟩
  | l :: xs, c, hn, h, h1, h2 => by
    obtain ⟨hl, hn⟩ := List.nodup_cons.1 hn
    obtain ⟨b1, b2, b3⟩ := h2 l (by simp)
    obtain ⟨c1, e1, i1, n1, l1, k1, d1, p1⟩ := mergeBranch_ok v hmem h h1 hls b1 b2 b3
    obtain ⟨c2, e2, i2, n2, l2, k2, d2, p2⟩ := mergeBranches_ok v hmem hls (xs := xs) (c := c1) hn i1 l1 (by
      intro x hx
      have hne : x ≠ l := by rintro rfl; exact hl hx
      obtain ⟨g1, g2, g3⟩ := h2 x (by simp [hx])
      refine ⟨by rw [p1, if_neg hne, g1], g2, fun y => ?_⟩
      rw [d1, if_neg (fun h => hne h.1), g3])
    refine ⟨c2, by rw [List.foldlM_cons, e1]; exact e2, i2, n2.trans n1, l2, k2.trans k1, ?_, ?_⟩
    · intro a b
      rw [d2, d1]
      by_cases ha : a = l
      · subst ha
        simp [hl]
      · simp [ha]
    · intro x
      rw [p2, p1]
      by_cases hx : x = l
      · subst hx
        simp [hl]
      · simp [hx]

/-- What a successful pop tells. -/
theorem pop_inv {c c' : Cfg} (h : Hist c.graph) {l : Nat} (hl : l ∈ c.graph.labels) (e : Graph.Cfg.pop c l = some c') :
    Hist c'.graph ∧ c'.entry = c.entry ∧ (∀ x, x ∈ c'.graph.labels ↔ x ∈ c.graph.labels ∧ x ≠ l) ∧
      (∀ a b, c'.graph.Edge a b ↔ c.graph.Edge a b) ∧ (∀ a, ¬ c.graph.Edge a l) ∧
      c'.bblocks.map (·.1) = (c.bblocks.map (·.1)).filter (fun x => x != l) ∧
      ∀ x, Cfg.block c' x = if x = l then none else Cfg.block c x := by
  have hb : (Cfg.block c l).isSome = true := by
    simp only [Graph.Cfg.pop, if_pos (contains_iff.2 hl), Option.bind_eq_bind] at e
    cases hg : c.graph.pop l with
    | none => rw [hg] at e; cases e
    | some g =>
      rw [hg] at e
      simp only [Option.bind_some, removeBlock] at e
      split at e
      · assumption
      · cases e
  have hg : ∃ g, c.graph.pop l = some g := by
    simp only [Graph.Cfg.pop, if_pos (contains_iff.2 hl), Option.bind_eq_bind] at e
    cases hg : c.graph.pop l with
    | none => rw [hg] at e; cases e
    | some g => exact ⟨g, rfl⟩
  obtain ⟨g, hg⟩ := hg
  obtain ⟨-, hc, hp, -⟩ := pop_some hg
  obtain ⟨c1, e1, h1, h2, h3, h4, h5, h6⟩ := pop_ok h hl hc hp hb
  rw [e] at e1
  cases e1
  refine ⟨h1, h2, h3, h4, ?_, h5, h6⟩
  intro a ha
  have := h.parent.2 ha
  rw [hp] at this
  cases this

/-- The loop that pops the other leaves. -/
theorem pops_inv : ∀ {xs : List Nat} {c c' : Cfg}, xs.Nodup → Hist c.graph → (∀ x ∈ xs, x ∈ c.graph.labels) →
    (∀ x ∈ xs, (Cfg.block c x).isSome) →
    xs.foldlM (fun (c : Cfg) (l : Nat) => if (Cfg.block c l).isSome then Graph.Cfg.pop c l else some c) c = some c' →
    Hist c'.graph ∧ c'.entry = c.entry ∧ (∀ x, x ∈ c'.graph.labels ↔ x ∈ c.graph.labels ∧ x ∉ xs) ∧
      (∀ a b, c'.graph.Edge a b ↔ c.graph.Edge a b) ∧ (∀ x ∈ xs, ∀ a, ¬ c.graph.Edge a x) ∧
      c'.bblocks.map (·.1) = (c.bblocks.map (·.1)).filter (fun x => !(xs.contains x)) ∧
      ∀ x, Cfg.block c' x = if x ∈ xs then none else Cfg.block c x
  | [], c, c', _, h, _, _, e => by
    simp only [List.foldlM_nil, Option.pure_def, Option.some.injEq] at e
    subst e
    refine ⟨h, rfl, by simp, fun _ _ => Iff.rfl, by simp, ?_, by simp⟩
    rw [List.filter_eq_self.2 (by simp)]
  | l :: xs, c, c', hn, h, hl, hb, e => by
    obtain ⟨hn1, hn⟩ := List.nodup_cons.1 hn
    rw [List.foldlM_cons, if_pos (hb l (by simp))] at e
    cases e1 : Graph.Cfg.pop c l with
    | none => rw [e1] at e; cases e
    | some c1 =>
      rw [e1] at e
      obtain ⟨i1, n1, l1, d1, q1, k1, b1⟩ := pop_inv h (hl l (by simp)) e1
      obtain ⟨i2, n2, l2, d2, q2, k2, b2⟩ := pops_inv hn i1 (by
        intro x hx
        have hne : x ≠ l := by rintro rfl; exact hn1 hx
        exact (l1 x).2 ⟨hl x (by simp [hx]), hne⟩) (by
        intro x hx
        have hne : x ≠ l := by rintro rfl; exact hn1 hx
        rw [b1, if_neg hne]
        exact hb x (by simp [hx])) e
      refine ⟨i2, n2.trans n1, ?_, fun a b => (d2 a b).trans (d1 a b), ?_, ?_, ?_⟩
      · intro x
        rw [l2, l1]
        simp only [List.mem_cons, not_or, and_assoc, ne_eq]
      · intro x hx a ha
        rcases List.mem_cons.1 hx with rfl | hx
        · exact q1 a ha
        · exact q2 x hx a ((d1 a x).2 ha)
      · rw [k2, k1, List.filter_filter]
        refine List.filter_congr (fun x _ => ?_)
        simp only [List.contains_cons, Bool.not_or, bne, Bool.and_comm]
      · intro x
        rw [b2, b1]
        by_cases hx : x = l
        · simp [hx]
        · simp [hx]

/-- The merging of the empty leaves, if it does not panic. -/
theorem mergeLeaves_ok {c c' : Cfg} (v : Inv c) {leaves : List Nat} (hnd : leaves.Nodup)
    (hleaf : ∀ x ∈ leaves, x ∈ c.graph.labels → x ≠ c.entry ∧ Cfg.block c x = some [] ∧ ∀ y, ¬ c.graph.Edge x y)
    (e : mergeLeaves leaves c = some c') : c' = c ∨ ∃ ls first, Fold c c' ls first ∧ ∃ x ∈ ls, x ≠ first := by
  simp only [mergeLeaves] at e
  split at e
  next first second rest hls =>
    right
    have hmem : ∀ x, x ∈ first :: second :: rest ↔ x ∈ leaves ∧ x ∈ c.graph.labels := by
      intro x
      rw [← hls]
      simp [mem_sortLabels]
    have hn : (first :: second :: rest).Nodup := by
      rw [← hls]
      exact (sortLabels_perm.nodup_iff.2 hnd).filter _
    have hlab : ∀ x ∈ first :: second :: rest, x ∈ c.graph.labels := fun x hx => ((hmem x).1 hx).2
    generalize hL : first :: second :: rest = ls at *
    have hfm : first ∈ ls := by rw [← hL]; simp
    obtain ⟨c1, e1, i1, n1, l1, k1, d1, b1⟩ := mergeBranches_ok v hfm hlab (xs := c.bblocks.map (·.1)) (c := c)
      v.prog.wf.labels v.hist (fun _ => Iff.rfl) (by
        intro l hl
        refine ⟨rfl, ?_, fun _ => Iff.rfl⟩
        exact Option.isSome_iff_exists.2 ((block_keys).1 hl))
    rw [e1] at e
    simp only [Option.bind_eq_bind, Option.bind_some] at e
    have hsub : ∀ x ∈ second :: rest, x ∈ ls := fun x hx => by rw [← hL]; exact List.mem_cons_of_mem _ hx
    have hb1 : ∀ x ∈ second :: rest, (Cfg.block c1 x).isSome := by
      intro x hx
      have hx' := hsub x hx
      have := (hleaf x ((hmem x).1 hx').1 (hlab x hx')).2.1
      rw [b1]
      split
      · rfl
      · rw [this]; rfl
    obtain ⟨i2, n2, l2, d2, q2, k2, b2⟩ := pops_inv (xs := second :: rest) (by rw [← hL] at hn; exact (List.nodup_cons.1 hn).2)
      i1 (fun x hx => (l1 x).2 (hlab x (hsub x hx))) hb1 e
    have hlow : ∀ x, low ls first x = x ↔ x ∉ second :: rest := by
      intro x
      rw [← hL] at hn
      have hf := (List.nodup_cons.1 hn).1
      by_cases hx : x ∈ ls
      · rw [low_in hx]
        rw [← hL] at hx
        rcases List.mem_cons.1 hx with rfl | hx
        · simp only [true_iff]; exact hf
        · constructor
          · rintro rfl; exact hf
          · exact fun h => absurd hx h
      · rw [low_out hx]
        simp only [true_iff]
        exact fun h => hx (hsub x h)
    refine ⟨ls, first, ⟨hfm, ?_, i2, n2.trans n1, ?_, ?_, ?_, ?_⟩, second, hsub second (by simp), ?_⟩
    · intro x hx
      exact hleaf x ((hmem x).1 hx).1 (hlab x hx)
    · intro x
      rw [l2, l1, hlow]
    · intro a b
      rw [d2, d1]
      by_cases hbr : Branches (blockOf c a)
      · have ha : a ∈ c.bblocks.map (·.1) := by
          obtain ⟨i, hi, -⟩ := hbr
          obtain ⟨k, hk⟩ := mem_instAt hi
          exact block_keys.2 ⟨_, block_of_instAt hk⟩
        rw [if_pos ⟨ha, hbr⟩]
      · rw [if_neg (fun h => hbr h.2)]
        have hout : ∀ k, c.graph.Edge a k → low ls first k = k := by
          intro k hk
          rw [hlow]
          intro hin
          refine q2 k hin a ((d1 a k).2 ?_)
          rw [if_neg (fun h => hbr h.2)]
          exact hk
        constructor
        · exact fun h => ⟨b, h, hout b h⟩
        · rintro ⟨k, hk, rfl⟩
          rw [hout k hk]
          exact hk
    · rw [k2, k1]
      refine List.filter_congr (fun x _ => ?_)
      have := hlow x
      by_cases hx : low ls first x = x
      · have h2 := this.1 hx
        rw [hx]
        simp only [beq_self_eq_true, Bool.not_eq_true', List.contains_eq_mem, decide_eq_false_iff_not]
        exact h2
      · have h2 : x ∈ second :: rest := Classical.byContradiction (fun h => hx (this.2 h))
        have h3 : (low ls first x == x) = false := by simpa using hx
        rw [h3]
        simp only [Bool.not_eq_false', List.contains_eq_mem, decide_eq_true_eq]
        exact h2
    · intro x
      rw [b2, b1]
      by_cases hx : low ls first x = x
      · rw [if_neg ((hlow x).1 hx), if_pos hx]
        cases hb : Cfg.block c x with
        | none =>
          rw [if_neg]
          · rfl
          · intro h
            obtain ⟨is, his⟩ := block_keys.1 h
            rw [hb] at his
            cases his
        | some is =>
          rw [if_pos (block_keys.2 ⟨is, hb⟩), blockOf_some hb]
          rfl
      · rw [if_neg hx, if_pos (Classical.byContradiction (fun h => hx ((hlow x).2 h)))]
    · rintro rfl
      rw [← hL] at hn
      simp at hn
  next => left; exact (Option.some.inj e).symm

end Verif.Prune
