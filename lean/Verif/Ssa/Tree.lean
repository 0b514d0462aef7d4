import Verif.Ssa.Rename
/-!
# Renaming, over the dominator tree
-/

namespace Verif.Ssa

open Verif.Il Verif.Graph Verif.Dom Verif.Opt

/-! ## The dominator tree -/

section
variable {E : Nat → Nat → Prop} {entry : Nat} {d : Dom}

theorem kids_nodup (t : IsTree E entry d) (p : Nat) : (d.immediatelyDominatedBy p).Nodup := by
  refine sortLabels_perm.nodup_iff.2 ?_
  refine List.Nodup.sublist ?_ t.keys
  exact List.Sublist.map _ List.filter_sublist

theorem kids_iff (t : IsTree E entry d) {p n : Nat} :
    n ∈ d.immediatelyDominatedBy p ↔ Reach E entry n ∧ n ≠ entry ∧ IsIdom E entry p n := by
  simp only [Dom.immediatelyDominatedBy, mem_sortLabels, List.mem_map, List.mem_filter,
    Prod.exists, exists_and_right, exists_eq_right, beq_iff_eq]
  have hlk : (n, p) ∈ d.idomBy ↔ d.idomOf n = some p := mem_lookup t.keys
  constructor
  · intro hm
    have hkey : n ∈ d.idomBy.map (·.1) := List.mem_map.2 ⟨_, hm, rfl⟩
    obtain ⟨hr, hne⟩ := t.key_iff.1 hkey
    obtain ⟨p', e, hi, -⟩ := t.idom n hr hne
    rw [hlk.1 hm] at e
    obtain rfl := Option.some.inj e
    exact ⟨hr, hne, hi⟩
  · rintro ⟨hr, hne, hi⟩
    obtain ⟨p', e, hi', -⟩ := t.idom n hr hne
    obtain rfl := idom_unique hr hi hi'
    exact hlk.2 e

theorem kids_idx (t : IsTree E entry d) {p n : Nat} (h : n ∈ d.immediatelyDominatedBy p) :
    d.postorder.idxOf n < d.postorder.idxOf p := by
  obtain ⟨hr, hne, hi⟩ := (kids_iff t).1 h
  obtain ⟨p', e, hi', hlt⟩ := t.idom n hr hne
  obtain rfl := idom_unique hr hi hi'
  exact hlt

/-- Dominators of one node form a chain. -/
theorem dom_chain (t : IsTree E entry d) {a b : Nat} : ∀ (m : Nat) {y : Nat}, Reach E entry y →
    d.postorder.length ≤ m + d.postorder.idxOf y → Dominates E entry a y → Dominates E entry b y →
    Dominates E entry a b ∨ Dominates E entry b a := by
  intro m
  induction m with
  | zero =>
    intro y hr hm
    have := List.idxOf_lt_length_of_mem ((t.mem y).2 hr)
    omega
  | succ m ih =>
    intro y hr hm ha hb
    by_cases hy : y = entry
    · subst hy
      rw [dom_of_entry ha, dom_of_entry hb]
      exact .inl dom_self
    · obtain ⟨p, -, hi, hlt⟩ := t.idom y hr hy
      rcases (idom_dominates hi).1 ha with rfl | ha'
      · exact .inr hb
      · rcases (idom_dominates hi).1 hb with rfl | hb'
        · exact .inl ha
        · exact ih (dom_reach hr hi.1.1) (by omega) ha' hb'

theorem kids_disjoint (t : IsTree E entry d) {p a b y : Nat} (ha : a ∈ d.immediatelyDominatedBy p)
    (hb : b ∈ d.immediatelyDominatedBy p) (hne : a ≠ b) (hy : Reach E entry y)
    (h1 : Dominates E entry a y) (h2 : Dominates E entry b y) : False := by
  have key : ∀ {a b : Nat}, a ∈ d.immediatelyDominatedBy p → b ∈ d.immediatelyDominatedBy p → a ≠ b →
      ¬ Dominates E entry a b := by
    intro a b ha hb hne h
    obtain ⟨hra, -, hia⟩ := (kids_iff t).1 ha
    obtain ⟨hrb, -, hib⟩ := (kids_iff t).1 hb
    have h3 := hib.2 a ⟨h, hne⟩
    exact hia.1.2 (dom_antisymm hra hia.1.1 h3)
  rcases dom_chain t d.postorder.length hy (by omega) h1 h2 with h | h
  · exact key ha hb hne h
  · exact key hb ha (fun e => hne e.symm) h

end

/-! ## Visits -/

/-- A visit of a block: its label, the names of the variables before it, and the next name. -/
structure Visit where
  lab : Nat
  σ : Nat → Nat
  k : Nat

section
variable (c0 : Cfg) (vs : Nat → List Nat)

/-- The variables a block writes, with those of its phis first. -/
def allDsts (x : Nat) : List Nat := vs x ++ dsts (blockOf c0 x)

/-- The names behind a visit. -/
def out (t : Visit) : Nat → Nat := bump t.σ t.k (allDsts c0 vs t.lab)

def tsOf (T : List Visit) (x : Nat) : List Nat :=
  match T.find? (fun t => t.lab == x) with
  | some t => List.range' t.k (vs x).length
  | none => vs x

def bOf (T : List Visit) (x : Nat) : List Inst :=
  match T.find? (fun t => t.lab == x) with
  | some t => renAll (bump t.σ t.k (vs x)) (t.k + (vs x).length) (blockOf c0 x)
  | none => blockOf c0 x

def eOf (T : List Visit) (x v : Nat) : List (Nat × Arg) :=
  (T.filter (fun t => (c0.graph.children t.lab).contains x)).map (fun t => (t.lab, .var (out c0 vs t v)))

/-- The program after the visits `T`. -/
def MidT (c : Cfg) (T : List Visit) : Prop := Mid c0 c vs (tsOf vs T) (eOf c0 vs T) (bOf c0 vs T)

end

variable {c0 : Cfg} {vs : Nat → List Nat}

theorem find_none {T : List Visit} {l : Nat} (h : l ∉ T.map (·.lab)) :
    T.find? (fun t => t.lab == l) = none := by
  rw [List.find?_eq_none]
  intro t ht he
  exact h (List.mem_map.2 ⟨t, ht, by simpa using he⟩)

theorem find_snoc_self {T : List Visit} {t : Visit} (h : t.lab ∉ T.map (·.lab)) :
    (T ++ [t]).find? (fun s => s.lab == t.lab) = some t := by
  rw [List.find?_append, find_none h]
  simp

theorem find_snoc_ne {T : List Visit} {t : Visit} {x : Nat} (h : x ≠ t.lab) :
    (T ++ [t]).find? (fun s => s.lab == x) = T.find? (fun s => s.lab == x) := by
  rw [List.find?_append]
  have : ¬ t.lab = x := fun e => h e.symm
  simp [this]

theorem renAll_noPhi : ∀ {is : List Inst} {σ : Nat → Nat} {k : Nat}, (∀ i ∈ is, i.t ≠ .phi) →
    ∀ i ∈ renAll σ k is, i.t ≠ .phi
  | [], _, _, _, i, hi => by simp [renAll] at hi
  | j :: is, σ, k, h, i, hi => by
    rcases List.mem_cons.1 hi with rfl | hi
    · exact h j (by simp)
    · exact renAll_noPhi (fun i hi => h i (by simp [hi])) i hi

theorem bOf_noPhi (h : ∀ x, ∀ i ∈ blockOf c0 x, i.t ≠ .phi) (T : List Visit) (x : Nat) :
    ∀ i ∈ bOf c0 vs T x, i.t ≠ .phi := by
  simp only [bOf]
  split
  · exact renAll_noPhi (h x)
  · exact h x

theorem visit_ok {d : Dom} (hp : ∀ x, ∀ i ∈ blockOf c0 x, i.t ≠ .phi) (w : WF c0.graph)
    (he : ∀ a b, c0.graph.Edge a b → (Cfg.block c0 b).isSome)
    {origs : List (Nat × List Nat)} (ho : ∀ x, (Cfg.block c0 x).isSome → (origs.lookup x).getD [] = vs x)
    {st : Stacks} {F : Nat → List Nat} (ha : Abs st F) {c : Cfg} {T : List Visit} (hm : MidT c0 vs c T)
    {l : Nat} (hl : l ∉ T.map (·.lab)) (hb : (Cfg.block c0 l).isSome) (n : Nat) :
    ∃ (is : List Inst) (st1 : Stacks) (is1 : List Inst) (st2 : Stacks) (c2 : Cfg) (F' : Nat → List Nat),
      Cfg.block c l = some is ∧
      renameInsts st n is = (st1, n + (allDsts c0 vs l).length, allDsts c0 vs l, is1) ∧
      fillChildren origs l (c.graph.childrenSorted l) (st1, setBlock c l is1) = some (st2, c2) ∧
      Abs st2 F' ∧ cur F' = out c0 vs ⟨l, cur F, n⟩ ∧ Grow F F' (allDsts c0 vs l) ∧
      MidT c0 vs c2 (T ++ [⟨l, cur F, n⟩]) := by
  obtain ⟨is0, hb⟩ := Option.isSome_iff_exists.1 hb
  have hbl : blockOf c0 l = is0 := by simp [blockOf, hb]
  have hblk : Cfg.block c l = some (phiList (vs l) (vs l) (eOf c0 vs T l) ++ blockOf c0 l) := by
    rw [hm.block, hb]
    simp [tsOf, bOf, find_none hl]
  have hd : dsts (phiList (vs l) (vs l) (eOf c0 vs T l) ++ blockOf c0 l) = allDsts c0 vs l := by
    rw [dsts_append, dsts_phiList rfl, allDsts]
  obtain ⟨F', h1, h2, h3, h4⟩ :=
    renameInsts_spec (phiList (vs l) (vs l) (eOf c0 vs T l) ++ blockOf c0 l) n ha
  rw [hd] at h2 h3 h4
  have hr : renAll (cur F) n (phiList (vs l) (vs l) (eOf c0 vs T l) ++ blockOf c0 l) =
      phiList (tsOf vs (T ++ [⟨l, cur F, n⟩]) l) (vs l) (eOf c0 vs T l) ++ bOf c0 vs (T ++ [⟨l, cur F, n⟩]) l := by
    have hf := find_snoc_self (T := T) (t := ⟨l, cur F, n⟩) hl
    simp only at hf
    rw [renAll_append, renAll_phiList rfl, dsts_phiList rfl]
    simp only [tsOf, bOf, hf]
  rw [hr] at h4
  have hm1 : Mid c0 (setBlock c l (phiList (tsOf vs (T ++ [⟨l, cur F, n⟩]) l) (vs l) (eOf c0 vs T l) ++
      bOf c0 vs (T ++ [⟨l, cur F, n⟩]) l)) vs (tsOf vs (T ++ [⟨l, cur F, n⟩])) (eOf c0 vs T)
      (bOf c0 vs (T ++ [⟨l, cur F, n⟩])) := by
    refine ⟨hm.graph, hm.entry, by rw [keys_setBlock, hm.keys], ?_, ?_⟩
    · intro x
      simp only [tsOf]
      split <;> simp
    · intro x
      rw [block_setBlock]
      by_cases hx : x = l
      · subst hx
        simp [hblk, hb]
      · rw [if_neg hx, hm.block]
        have hf := find_snoc_ne (T := T) (t := ⟨l, cur F, n⟩) hx
        simp only [tsOf, bOf, hf]
  have hg : (setBlock c l (phiList (tsOf vs (T ++ [⟨l, cur F, n⟩]) l) (vs l) (eOf c0 vs T l) ++
      bOf c0 vs (T ++ [⟨l, cur F, n⟩]) l)).graph = c0.graph := hm1.graph
  obtain ⟨st2, c2, e, h5, h6⟩ := fillChildren_spec (l := l) (origs := origs)
    (bOf_noPhi hp (T ++ [⟨l, cur F, n⟩])) (c.graph.childrenSorted l) h1 hm1 (by
      rw [hm.graph]
      exact sortLabels_perm.nodup_iff.2 (w.ncs l)) (by
      intro x hx
      rw [hm.graph] at hx
      have hE : c0.graph.Edge l x := mem_sortLabels.1 hx
      refine ⟨he l x hE, ho x (he l x hE), ?_⟩
      intro v hv
      simp only [eOf, List.map_map, List.mem_map, List.mem_filter] at hv
      obtain ⟨t, ⟨ht, -⟩, hv⟩ := hv
      exact hl (List.mem_map.2 ⟨t, ht, hv⟩))
  refine ⟨_, _, _, st2, c2, F', hblk, Prod.ext rfl h4, e, h5, h2, h3, ?_⟩
  have hE : eOf c0 vs (T ++ [⟨l, cur F, n⟩]) = (fun x v =>
      if x ∈ c.graph.childrenSorted l then eOf c0 vs T x v ++ [(l, Arg.var (cur F' v))] else eOf c0 vs T x v) := by
    funext x v
    have hx : x ∈ c.graph.childrenSorted l ↔ x ∈ c0.graph.children l := by
      rw [hm.graph]; exact mem_sortLabels
    simp only [eOf, List.filter_append, List.map_append]
    by_cases hx' : x ∈ c0.graph.children l
    · rw [if_pos (hx.2 hx')]
      simp [hx', h2, out]
    · rw [if_neg (fun h => hx' (hx.1 h))]
      simp [hx']
  rw [MidT, hE]
  exact h6

/-- What the visits of the subtrees below `ls` look like: the names before them are `σ`, the counter goes from
`n` to `n'`. -/
structure Part (c0 : Cfg) (vs : Nat → List Nat) (ls : List Nat) (σ : Nat → Nat) (n n' : Nat) (T : List Visit) :
    Prop where
  labs : ∀ y, y ∈ T.map (·.lab) ↔
    Reach c0.graph.Edge c0.entry y ∧ ∃ l ∈ ls, Dominates c0.graph.Edge c0.entry l y
  nodup : (T.map (·.lab)).Nodup
  parent : ∀ t ∈ T, (t.lab ∈ ls ∧ t.σ = σ) ∨
    ∃ p ∈ T, IsIdom c0.graph.Edge c0.entry p.lab t.lab ∧ t.σ = out c0 vs p ∧ p.k + (allDsts c0 vs p.lab).length ≤ t.k
  seq : T.Pairwise (fun t t' => t.k + (allDsts c0 vs t.lab).length ≤ t'.k)
  lo : ∀ t ∈ T, n ≤ t.k
  hi : ∀ t ∈ T, t.k + (allDsts c0 vs t.lab).length ≤ n'
  le : n ≤ n'

theorem Part.nil (σ : Nat → Nat) (n : Nat) : Part c0 vs [] σ n n [] where
  labs := by simp
  nodup := by simp
  parent := by simp
  seq := by simp
  lo := by simp
  hi := by simp
  le := Nat.le_refl _

theorem Part.cons {l : Nat} {ls : List Nat} {σ : Nat → Nat} {n n1 n2 : Nat} {T T' : List Visit}
    (h : Part c0 vs [l] σ n n1 T) (h' : Part c0 vs ls σ n1 n2 T')
    (hd : ∀ y, Reach c0.graph.Edge c0.entry y → Dominates c0.graph.Edge c0.entry l y →
      ∀ x ∈ ls, ¬ Dominates c0.graph.Edge c0.entry x y) : Part c0 vs (l :: ls) σ n n2 (T ++ T') where
  labs := by
    intro y
    rw [List.map_append, List.mem_append, h.labs, h'.labs]
    simp only [List.mem_cons, List.not_mem_nil, or_false, exists_eq_left]
    constructor
    · rintro (⟨h1, h2⟩ | ⟨h1, x, h2, h3⟩)
      · exact ⟨h1, l, .inl rfl, h2⟩
      · exact ⟨h1, x, .inr h2, h3⟩
    · rintro ⟨h1, x, rfl | h2, h3⟩
      · exact .inl ⟨h1, h3⟩
      · exact .inr ⟨h1, x, h2, h3⟩
  nodup := by
    rw [List.map_append, List.nodup_append]
    refine ⟨h.nodup, h'.nodup, ?_⟩
    rintro a ha b hb rfl
    obtain ⟨h1, x, hx, h2⟩ := (h.labs a).1 ha
    obtain ⟨-, z, hz, h3⟩ := (h'.labs a).1 hb
    simp only [List.mem_singleton] at hx
    subst hx
    exact hd a h1 h2 z hz h3
  parent := by
    intro t ht
    rcases List.mem_append.1 ht with ht | ht
    · rcases h.parent t ht with ⟨h1, h2⟩ | ⟨p, hp, r⟩
      · exact .inl ⟨by simp at h1; simp [h1], h2⟩
      · exact .inr ⟨p, by simp [hp], r⟩
    · rcases h'.parent t ht with ⟨h1, h2⟩ | ⟨p, hp, r⟩
      · exact .inl ⟨by simp [h1], h2⟩
      · exact .inr ⟨p, by simp [hp], r⟩
  seq := by
    rw [List.pairwise_append]
    refine ⟨h.seq, h'.seq, ?_⟩
    intro a ha b hb
    exact Nat.le_trans (h.hi a ha) (h'.lo b hb)
  lo := by
    intro t ht
    rcases List.mem_append.1 ht with ht | ht
    · exact h.lo t ht
    · exact Nat.le_trans h.le (h'.lo t ht)
  hi := by
    intro t ht
    rcases List.mem_append.1 ht with ht | ht
    · exact Nat.le_trans (h.hi t ht) h'.le
    · exact h'.hi t ht
  le := Nat.le_trans h.le h'.le

theorem Part.node {d : Dom} (t : IsTree c0.graph.Edge c0.entry d) {l : Nat}
    (hr : Reach c0.graph.Edge c0.entry l) {σ : Nat → Nat} {n n' : Nat} {T : List Visit}
    (h : Part c0 vs (d.immediatelyDominatedBy l) (out c0 vs ⟨l, σ, n⟩) (n + (allDsts c0 vs l).length) n' T) :
    Part c0 vs [l] σ n n' (⟨l, σ, n⟩ :: T) where
  labs := by
    intro y
    simp only [List.map_cons, List.mem_cons, h.labs, List.not_mem_nil, or_false, exists_eq_left]
    constructor
    · rintro (rfl | ⟨h1, k, hk, h2⟩)
      · exact ⟨hr, dom_self⟩
      · exact ⟨h1, dom_trans ((kids_iff t).1 hk).2.2.1.1 h2⟩
    · rintro ⟨h1, h2⟩
      -- climb from `y` to the child of `l` above it
      have key : ∀ (m : Nat) (z : Nat), d.postorder.length ≤ m + d.postorder.idxOf z →
          Reach c0.graph.Edge c0.entry z → Dominates c0.graph.Edge c0.entry l z → z ≠ l →
          ∃ k ∈ d.immediatelyDominatedBy l, Dominates c0.graph.Edge c0.entry k z := by
        intro m
        induction m with
        | zero =>
          intro z hm hz
          have := List.idxOf_lt_length_of_mem ((t.mem z).2 hz)
          omega
        | succ m ih =>
          intro z hm hz hlz hne
          have hze : z ≠ c0.entry := by
            rintro rfl
            exact hne (dom_of_entry hlz).symm
          obtain ⟨p, -, hi, hlt⟩ := t.idom z hz hze
          have hlp := hi.2 l ⟨hlz, fun e => hne e.symm⟩
          by_cases hpl : p = l
          · subst hpl
            exact ⟨z, (kids_iff t).2 ⟨hz, hze, hi⟩, dom_self⟩
          · obtain ⟨k, hk, hkd⟩ := ih p (by omega) (dom_reach hz hi.1.1) hlp hpl
            exact ⟨k, hk, dom_trans hkd hi.1.1⟩
      by_cases hy : y = l
      · exact .inl hy
      · exact .inr ⟨h1, key d.postorder.length y (by omega) h1 h2 hy⟩
  nodup := by
    simp only [List.map_cons, List.nodup_cons, h.labs]
    refine ⟨?_, h.nodup⟩
    rintro ⟨-, k, hk, h2⟩
    obtain ⟨hk1, hk2, hk3⟩ := (kids_iff t).1 hk
    exact hk3.1.2 (dom_antisymm hk1 hk3.1.1 h2)
  parent := by
    intro s hs
    rcases List.mem_cons.1 hs with rfl | hs
    · exact .inl ⟨by simp, rfl⟩
    · rcases h.parent s hs with ⟨h1, h2⟩ | ⟨p, hp, r⟩
      · exact .inr ⟨⟨l, σ, n⟩, by simp, ((kids_iff t).1 h1).2.2, h2, h.lo s hs⟩
      · exact .inr ⟨p, by simp [hp], r⟩
  seq := by
    rw [List.pairwise_cons]
    exact ⟨fun s hs => h.lo s hs, h.seq⟩
  lo := by
    intro s hs
    rcases List.mem_cons.1 hs with rfl | hs
    · exact Nat.le_refl _
    · have := h.lo s hs
      omega
  hi := by
    intro s hs
    rcases List.mem_cons.1 hs with rfl | hs
    · exact h.le
    · exact h.hi s hs
  le := by
    have := h.le
    omega

section
variable {d : Dom} (hp : ∀ x, ∀ i ∈ blockOf c0 x, i.t ≠ .phi) (w : WF c0.graph)
  (he : ∀ a b, c0.graph.Edge a b → (Cfg.block c0 b).isSome)
  (hr : ∀ l, Reach c0.graph.Edge c0.entry l → (Cfg.block c0 l).isSome)
  (t : IsTree c0.graph.Edge c0.entry d)
  {origs : List (Nat × List Nat)} (ho : ∀ x, (Cfg.block c0 x).isSome → (origs.lookup x).getD [] = vs x)

include hp w he hr t ho in
theorem renameTree_ok : ∀ (fuel : Nat) {l : Nat} {st : Stacks} {F : Nat → List Nat} {c : Cfg} {T : List Visit}
    (n : Nat), Reach c0.graph.Edge c0.entry l → d.postorder.idxOf l < fuel → Abs st F → MidT c0 vs c T →
    (∀ s ∈ T, ¬ Dominates c0.graph.Edge c0.entry l s.lab) →
    ∃ (st' : Stacks) (c' : Cfg) (n' : Nat) (T' : List Visit),
      renameTree origs d fuel (st, c, n) l = some (st', c', n') ∧ Abs st' F ∧ MidT c0 vs c' (T ++ T') ∧
      Part c0 vs [l] (cur F) n n' T' := by
  intro fuel
  induction fuel with
  | zero => intro l st F c T n _ h; omega
  | succ fuel ih =>
    intro l st F c T n hrl hfu ha hm hT
    have forest : ∀ (ls : List Nat) {st : Stacks} {F : Nat → List Nat} {c : Cfg} {T : List Visit} (n : Nat),
        (∀ x ∈ ls, Reach c0.graph.Edge c0.entry x ∧ d.postorder.idxOf x < fuel) → ls.Nodup →
        (∀ a ∈ ls, ∀ b ∈ ls, a ≠ b → ∀ y, Reach c0.graph.Edge c0.entry y →
          Dominates c0.graph.Edge c0.entry a y → ¬ Dominates c0.graph.Edge c0.entry b y) →
        Abs st F → MidT c0 vs c T → (∀ x ∈ ls, ∀ s ∈ T, ¬ Dominates c0.graph.Edge c0.entry x s.lab) →
        ∃ (st' : Stacks) (c' : Cfg) (n' : Nat) (T' : List Visit),
          ls.foldlM (renameTree origs d fuel) (st, c, n) = some (st', c', n') ∧ Abs st' F ∧
          MidT c0 vs c' (T ++ T') ∧ Part c0 vs ls (cur F) n n' T' := by
      intro ls
      induction ls with
      | nil =>
        intro st F c T n _ _ _ ha hm _
        exact ⟨st, c, n, [], rfl, ha, by simpa using hm, Part.nil _ _⟩
      | cons x ls ihl =>
        intro st F c T n h1 h2 h3 ha hm hT
        obtain ⟨st1, c1, n1, T1, e1, a1, m1, p1⟩ := ih n (h1 x (by simp)).1 (h1 x (by simp)).2 ha hm
          (hT x (by simp))
        obtain ⟨hx1, hx2⟩ := List.nodup_cons.1 h2
        obtain ⟨st2, c2, n2, T2, e2, a2, m2, p2⟩ := ihl n1 (fun y hy => h1 y (by simp [hy])) hx2
          (fun a ha' b hb => h3 a (by simp [ha']) b (by simp [hb])) a1 m1 (by
            intro y hy s hs hdom
            rcases List.mem_append.1 hs with hs | hs
            · exact hT y (by simp [hy]) s hs hdom
            · have hs' := (p1.labs s.lab).1 (List.mem_map.2 ⟨s, hs, rfl⟩)
              obtain ⟨hr', z, hz, hzd⟩ := hs'
              simp only [List.mem_singleton] at hz
              subst hz
              exact h3 z (by simp) y (by simp [hy]) (fun e => hx1 (e ▸ hy)) s.lab hr' hzd hdom)
        refine ⟨st2, c2, n2, T1 ++ T2, ?_, a2, by simpa using m2, p1.cons p2 ?_⟩
        · simp [List.foldlM_cons, e1, e2]
        · intro y hy hxy z hz
          exact h3 x (by simp) z (by simp [hz]) (fun e => hx1 (e ▸ hz)) y hy hxy
    have hl : l ∉ T.map (·.lab) := by
      intro h
      obtain ⟨s, hs, e⟩ := List.mem_map.1 h
      exact hT s hs (e ▸ dom_self)
    obtain ⟨is, st1, is1, st2, c2, F', e1, e2, e3, a2, hc, hg, m2⟩ :=
      visit_ok (d := d) hp w he ho ha hm hl (hr l hrl) n
    obtain ⟨st3, c3, n3, T3, e4, a3, m3, p3⟩ := forest (d.immediatelyDominatedBy l)
      (n + (allDsts c0 vs l).length)
      (fun x hx => ⟨((kids_iff t).1 hx).1, by have := kids_idx t hx; omega⟩) (kids_nodup t l)
      (fun a ha b hb hne y hy h1 h2 => kids_disjoint t ha hb hne hy h1 h2) a2 m2 (by
        intro x hx s hs hdom
        obtain ⟨hx1, hx2, hx3⟩ := (kids_iff t).1 hx
        rcases List.mem_append.1 hs with hs | hs
        · exact hT s hs (dom_trans hx3.1.1 hdom)
        · simp only [List.mem_singleton] at hs
          subst hs
          exact hx3.1.2 (dom_antisymm hx1 hx3.1.1 hdom))
    obtain ⟨st4, e5, a4⟩ := popAll_grow a3 hg
    rw [hc] at p3
    refine ⟨st4, c3, n3, ⟨l, cur F, n⟩ :: T3, ?_, a4, by simpa using m3, Part.node t hrl p3⟩
    simp only [renameTree, e1, Option.bind_eq_bind, Option.bind_some, e2, e3, e4, e5]

end

end Verif.Ssa
