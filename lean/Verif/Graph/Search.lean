import Verif.Graph.Lemmas
/-!
# Lemmas about breadth-first and depth-first search
-/

namespace Verif.Graph

/-! ## Reachability -/

theorem nodup_snoc {l : List Nat} {x : Nat} (h : l.Nodup) (hx : x ∉ l) : (l ++ [x]).Nodup := by
  rw [List.nodup_append]
  refine ⟨h, by simp, ?_⟩
  intro a ha b hb e
  simp only [List.mem_singleton] at hb
  subst hb
  subst e
  exact hx ha

theorem Reach.trans {E : Nat → Nat → Prop} {a b c : Nat} (h : Reach E a b) (h' : Reach E b c) :
    Reach E a c := by
  induction h' with
  | refl => exact h
  | step _ e ih => exact .step ih e

theorem Reach.mono {E F : Nat → Nat → Prop} (hf : ∀ a b, E a b → F a b) {a b : Nat}
    (h : Reach E a b) : Reach F a b := by
  induction h with
  | refl => exact .refl
  | step _ e ih => exact .step ih (hf _ _ e)

theorem Reach.head {E : Nat → Nat → Prop} {a b c : Nat} (e : E a b) (h : Reach E b c) :
    Reach E a c := Reach.trans (.step .refl e) h

theorem Reach.closed {E : Nat → Nat → Prop} {S : Nat → Prop} (hc : ∀ a b, S a → E a b → S b)
    {a b : Nat} (ha : S a) (h : Reach E a b) : S b := by
  induction h with
  | refl => exact ha
  | step _ e ih => exact hc _ _ ih e

theorem walk_of_reach {E : Nat → Nat → Prop} {a b : Nat} (h : Reach E a b) : ∃ l, Walk E a l b := by
  induction h with
  | refl => exact ⟨_, .start⟩
  | step _ e ih =>
    obtain ⟨l, hl⟩ := ih
    exact ⟨_, .step hl e⟩

theorem reach_of_walk {E : Nat → Nat → Prop} {a b : Nat} {l : List Nat} (h : Walk E a l b) :
    Reach E a b := by
  induction h with
  | start => exact .refl
  | step _ e ih => exact .step ih e

/-! ## Breadth-first search -/

theorem visitChildren_spec : ∀ {cs seen queue : List Nat},
    ∃ new, visitChildren cs (seen, queue) = (seen ++ new, queue ++ new) ∧
      (seen.Nodup → (seen ++ new).Nodup) ∧ (∀ x ∈ new, x ∈ cs) ∧
      (∀ x ∈ cs, x ∈ seen ++ new)
  | [], seen, queue => ⟨[], by simp [visitChildren], by simp, by simp, by simp⟩
  | c :: cs, seen, queue => by
    by_cases hc : c ∈ seen
    · obtain ⟨new, e, hn, hm, hcov⟩ := visitChildren_spec (cs := cs) (seen := seen) (queue := queue)
      refine ⟨new, ?_, hn, fun x hx => List.mem_cons_of_mem _ (hm x hx), ?_⟩
      · simp only [visitChildren, hc, if_true, e]
      · intro x hx
        rcases List.mem_cons.1 hx with rfl | hx
        · simp [hc]
        · exact hcov x hx
    · obtain ⟨new, e, hn, hm, hcov⟩ := visitChildren_spec (cs := cs) (seen := seen ++ [c])
        (queue := queue ++ [c])
      refine ⟨c :: new, ?_, ?_, ?_, ?_⟩
      · simp only [visitChildren, hc, if_false, e]
        simp
      · intro hs
        simpa using hn (nodup_snoc hs hc)
      · intro x hx
        rcases List.mem_cons.1 hx with rfl | hx
        · simp
        · exact List.mem_cons_of_mem _ (hm x hx)
      · intro x hx
        rcases List.mem_cons.1 hx with rfl | hx
        · simp
        · simpa using hcov x hx

theorem bfs_spec {g : Graph} (w : WF g) {entry : Nat} : ∀ {fuel : Nat} {seen queue : List Nat},
    seen.Nodup → (∀ x ∈ seen, x = entry ∨ x ∈ g.labels) →
    (∀ x ∈ seen, Reach g.Edge entry x) → entry ∈ seen → (∀ x ∈ queue, x ∈ seen) →
    (∀ x ∈ seen, x ∉ queue → ∀ c ∈ g.children x, c ∈ seen) →
    g.labels.length + 1 + queue.length ≤ fuel + seen.length →
    ∃ s, bfs g fuel (seen, queue) = some s ∧ ∀ x, x ∈ s ↔ Reach g.Edge entry x
  | fuel, seen, [], hnd, hl, hr, he, _, hcl, _ => by
    refine ⟨seen, by simp [bfs], fun x => ⟨hr x, ?_⟩⟩
    intro h
    exact Reach.closed (S := fun x => x ∈ seen)
      (fun a b ha e => hcl a ha (by simp) b e) he h
  | 0, seen, n :: queue, hnd, hl, hr, he, hq, hcl, hf => by
    exfalso
    have hlen : seen.length ≤ (entry :: g.labels).length := by
      apply hnd.length_le_of_subset
      intro x hx
      rcases hl x hx with rfl | h
      · simp
      · simp [h]
    simp only [List.length_cons] at hlen hf
    omega
  | fuel + 1, seen, n :: queue, hnd, hl, hr, he, hq, hcl, hf => by
    obtain ⟨new, e, hn, hm, hcov⟩ := visitChildren_spec (cs := g.childrenSorted n) (seen := seen)
      (queue := queue)
    have hns : n ∈ seen := hq n (by simp)
    have hm' : ∀ x ∈ new, x ∈ g.children n := fun x hx => mem_sortLabels.1 (hm x hx)
    simp only [bfs, e]
    apply bfs_spec w (hn hnd)
    · intro x hx
      rcases List.mem_append.1 hx with h | h
      · exact hl x h
      · exact .inr (w.child_label (hm' x h))
    · intro x hx
      rcases List.mem_append.1 hx with h | h
      · exact hr x h
      · exact .step (hr n hns) (hm' x h)
    · exact List.mem_append_left _ he
    · intro x hx
      rcases List.mem_append.1 hx with h | h
      · exact List.mem_append_left _ (hq x (List.mem_cons_of_mem _ h))
      · exact List.mem_append_right _ h
    · intro x hx hxq c hc
      rcases List.mem_append.1 hx with h | h
      · by_cases hxn : x = n
        · subst hxn
          exact hcov c (mem_sortLabels.2 hc)
        · refine List.mem_append_left _ (hcl x h ?_ c hc)
          intro h'
          rcases List.mem_cons.1 h' with h' | h'
          · exact hxn h'
          · exact hxq (List.mem_append_left _ h')
      · exact absurd (List.mem_append_right _ h) hxq
    · simp only [List.length_append, List.length_cons] at hf ⊢
      omega

theorem findUnreachable_spec {g : Graph} (w : WF g) {entry fuel : Nat}
    (hf : g.labels.length + 1 ≤ fuel) :
    ∃ u, findUnreachable g fuel entry = some u ∧ u.Nodup ∧
      u.Pairwise (fun a b : Nat => a ≤ b) ∧
      ∀ x, x ∈ u ↔ x ∈ g.labels ∧ ¬ Reach g.Edge entry x := by
  obtain ⟨s, e, hs⟩ := bfs_spec w (entry := entry) (fuel := fuel) (seen := [entry])
    (queue := [entry]) (by simp) (by simp) (by simp; exact .refl) (by simp) (by simp)
    (by simp) (by simpa using hf)
  refine ⟨_, by simp [findUnreachable, e]; rfl, ?_, ?_, ?_⟩
  · exact List.Pairwise.filter _ (sortLabels_perm.nodup_iff.2 w.keys)
  · exact List.Pairwise.filter _ sortLabels_le
  · intro x
    simp [List.mem_filter, Graph.labelsSorted, mem_sortLabels, hs]

/-! ## Contracting a set of nodes closed under predecessors -/

theorem deleteMany_spec : ∀ {u : List Nat} {g : Graph}, WF g → u.Nodup → (∀ x ∈ u, x ∈ g.labels) →
    (∀ a b, b ∈ g.children a → b ∈ u → a ∈ u) →
    ∃ g', g.deleteMany u = some g' ∧ WF g' ∧ (∀ x, x ∈ g'.labels ↔ x ∈ g.labels ∧ x ∉ u) ∧
      ∀ a b, b ∈ g'.children a ↔ b ∈ g.children a ∧ a ∉ u ∧ b ∉ u
  | [], g, w, _, _, _ => ⟨g, rfl, w, by simp, by simp⟩
  | n :: u, g, w, hnd, hl, hcl => by
    rw [List.nodup_cons] at hnd
    obtain ⟨g1, e1, -⟩ := contract_eq w (hl n (by simp))
    obtain ⟨w1, -, l1, c1⟩ := contract_wf w e1
    have hl1 : ∀ x ∈ u, x ∈ g1.labels := by
      intro x hx
      rw [l1]
      simp only [List.mem_filter, bne_iff_ne, ne_eq]
      exact ⟨hl x (List.mem_cons_of_mem _ hx), fun e => hnd.1 (e ▸ hx)⟩
    have hcl1 : ∀ a b, b ∈ g1.children a → b ∈ u → a ∈ u := by
      intro a b hab hb
      obtain ⟨ha, -, h | ⟨h, -⟩⟩ := (c1 a b).1 hab
      · rcases List.mem_cons.1 (hcl a b h (List.mem_cons_of_mem _ hb)) with h' | h'
        · exact absurd h' ha
        · exact h'
      · rcases List.mem_cons.1 (hcl a n h (by simp)) with h' | h'
        · exact absurd h' ha
        · exact h'
    obtain ⟨g', e, w', hl', hc'⟩ := deleteMany_spec w1 hnd.2 hl1 hcl1
    refine ⟨g', ?_, w', ?_, ?_⟩
    · simp only [Graph.deleteMany, List.foldlM_cons, e1, Option.bind_eq_bind, Option.bind_some]
      exact e
    · intro x
      rw [hl', l1]
      simp only [List.mem_filter, bne_iff_ne, ne_eq, List.mem_cons, not_or]
      constructor
      · rintro ⟨⟨h1, h2⟩, h3⟩; exact ⟨h1, h2, h3⟩
      · rintro ⟨h1, h2, h3⟩; exact ⟨⟨h1, h2⟩, h3⟩
    · intro a b
      rw [hc', c1]
      simp only [List.mem_cons, not_or]
      constructor
      · rintro ⟨⟨h1, h2, h | ⟨h, -⟩⟩, h3, h4⟩
        · exact ⟨h, ⟨h1, h3⟩, h2, h4⟩
        · exfalso
          rcases List.mem_cons.1 (hcl a n h (by simp)) with h' | h'
          · exact h1 h'
          · exact h3 h'
      · rintro ⟨h, ⟨h1, h3⟩, h2, h4⟩
        exact ⟨⟨h1, h2, .inl h⟩, h3, h4⟩

theorem removeBlock_isSome {β : Type} {k : Nat} : ∀ {l : List (Nat × β)},
    (l.lookup k).isSome = true ↔ k ∈ l.map (·.1)
  | [] => by simp
  | (a, n) :: l => by
    by_cases h : k = a
    · subst h; simp
    · have hb : (k == a) = false := by simpa using h
      simp only [List.lookup_cons, hb, List.map_cons, List.mem_cons, h, false_or]
      exact removeBlock_isSome

theorem removeMany_spec {β : Type} : ∀ {u : List Nat} {bs : List (Nat × β)}, u.Nodup →
    (∀ x ∈ u, x ∈ bs.map (·.1)) →
    u.foldlM removeBlock bs = some (bs.filter (fun e => !(u.contains e.1)))
  | [], bs, _, _ => by
    have : bs.filter (fun _ => true) = bs := List.filter_eq_self.2 (by simp)
    simp [this]
  | n :: u, bs, hnd, h => by
    rw [List.nodup_cons] at hnd
    have hn : (bs.lookup n).isSome = true := removeBlock_isSome.2 (h n (by simp))
    simp only [List.foldlM_cons, removeBlock, hn, if_true, Option.bind_eq_bind, Option.bind_some]
    have := removeMany_spec (u := u) (bs := bs.filter (fun e => e.1 != n)) hnd.2 (by
      intro x hx
      have hxb := h x (List.mem_cons_of_mem _ hx)
      obtain ⟨e, he, rfl⟩ := List.mem_map.1 hxb
      refine List.mem_map.2 ⟨e, List.mem_filter.2 ⟨he, ?_⟩, rfl⟩
      simp only [bne_iff_ne, ne_eq]
      intro e'
      exact hnd.1 (e' ▸ hx))
    rw [this, List.filter_filter]
    congr 1
    apply List.filter_congr
    intro e _
    simp only [List.contains_cons, Bool.not_or]
    rw [Bool.and_comm]
    rfl

/-! ## Depth-first search -/

/-- Every element is allowed by `R` or has a predecessor later in the list. -/
def Later (nbrs : Nat → List Nat) (R : Nat → Prop) : List Nat → Prop
  | [] => True
  | x :: l => (R x ∨ ∃ p ∈ l, x ∈ nbrs p) ∧ Later nbrs R l

/-- Every successor of an element is in `S`, in `pre`, earlier in the list, or can reach it. -/
def Topo (nbrs : Nat → List Nat) (S : Nat → Prop) : List Nat → List Nat → Prop
  | _, [] => True
  | pre, x :: l =>
    (∀ c ∈ nbrs x, S c ∨ c ∈ pre ∨ Reach (fun a b => b ∈ nbrs a) c x) ∧
      Topo nbrs S (pre ++ [x]) l

theorem Later.append {nbrs : Nat → List Nat} {R : Nat → Prop} : ∀ {la lb : List Nat},
    Later nbrs R la → Later nbrs R lb → Later nbrs R (la ++ lb)
  | [], _, _, h => h
  | x :: la, lb, ha, hb => by
    refine ⟨?_, Later.append ha.2 hb⟩
    rcases ha.1 with h | ⟨p, hp, h⟩
    · exact .inl h
    · exact .inr ⟨p, List.mem_append_left _ hp, h⟩

theorem Later.mono {nbrs : Nat → List Nat} {R R' : Nat → Prop} : ∀ {l : List Nat},
    (∀ x ∈ l, R x → R' x) → Later nbrs R l → Later nbrs R' l
  | [], _, h => h
  | x :: l, hR, h => by
    refine ⟨?_, Later.mono (fun y hy => hR y (List.mem_cons_of_mem _ hy)) h.2⟩
    rcases h.1 with h | h
    · exact .inl (hR x (by simp) h)
    · exact .inr h

theorem Later.snoc {nbrs : Nat → List Nat} {n : Nat} : ∀ {l : List Nat},
    Later nbrs (fun x => x ∈ nbrs n) l → Later nbrs (fun x => x = n) (l ++ [n])
  | [], _ => ⟨.inl rfl, trivial⟩
  | x :: l, h => by
    refine ⟨.inr ?_, Later.snoc h.2⟩
    rcases h.1 with h | ⟨p, hp, h⟩
    · exact ⟨n, by simp, h⟩
    · exact ⟨p, List.mem_append_left _ hp, h⟩

theorem Later.reach {nbrs : Nat → List Nat} {n : Nat} : ∀ {l : List Nat},
    Later nbrs (fun x => x = n) l → ∀ x ∈ l, Reach (fun a b => b ∈ nbrs a) n x
  | [], _, x, hx => by simp at hx
  | y :: l, h, x, hx => by
    rcases List.mem_cons.1 hx with rfl | hx
    · rcases h.1 with rfl | ⟨p, hp, e⟩
      · exact .refl
      · exact .step (Later.reach h.2 p hp) e
    · exact Later.reach h.2 x hx

theorem Topo.append {nbrs : Nat → List Nat} {S : Nat → Prop} : ∀ {la pre lb : List Nat},
    Topo nbrs S pre la → Topo nbrs S (pre ++ la) lb → Topo nbrs S pre (la ++ lb)
  | [], pre, lb, _, h => by simpa using h
  | x :: la, pre, lb, ha, hb => by
    refine ⟨ha.1, Topo.append ha.2 ?_⟩
    simpa using hb

theorem Topo.mono {nbrs : Nat → List Nat} {S S' : Nat → Prop} : ∀ {l pre pre' : List Nat},
    (∀ x ∈ l, ∀ c, S c → S' c ∨ c ∈ pre' ∨ Reach (fun a b => b ∈ nbrs a) c x) →
    (∀ c ∈ pre, c ∈ pre') →
    Topo nbrs S pre l → Topo nbrs S' pre' l
  | [], _, _, _, _, _ => trivial
  | x :: l, pre, pre', hS, hp, h => by
    refine ⟨?_, Topo.mono ?_ ?_ h.2⟩
    · intro c hc
      rcases h.1 c hc with h | h | h
      · exact hS x (by simp) c h
      · exact .inr (.inl (hp c h))
      · exact .inr (.inr h)
    · intro y hy c hc
      rcases hS y (List.mem_cons_of_mem _ hy) c hc with h | h | h
      · exact .inl h
      · exact .inr (.inl (List.mem_append_left _ h))
      · exact .inr (.inr h)
    · intro c hc
      rcases List.mem_append.1 hc with h | h
      · exact List.mem_append_left _ (hp c h)
      · exact List.mem_append_right _ h

/-- What a call of `visit`, or a loop of them over `R`, does to the state. -/
structure Visited (nbrs : Nat → List Nat) (U : List Nat) (R : Nat → Prop)
    (S O S' O' l : List Nat) : Prop where
  order : O' = O ++ l
  nodup : l.Nodup
  fresh : ∀ x ∈ l, x ∉ S
  seen : ∀ x, x ∈ S' ↔ x ∈ S ∨ x ∈ l
  snd : S'.Nodup
  sub : ∀ x ∈ S', x ∈ U
  closed : ∀ x ∈ l, ∀ c ∈ nbrs x, c ∈ S'
  later : Later nbrs R l
  topo : Topo nbrs (fun c => c ∈ S) [] l

theorem Visited.nil {nbrs : Nat → List Nat} {U : List Nat} {R : Nat → Prop} {S O : List Nat}
    (hn : S.Nodup) (hU : ∀ x ∈ S, x ∈ U) : Visited nbrs U R S O S O [] :=
  ⟨by simp, by simp, by simp, by simp, hn, hU, by simp, trivial, trivial⟩

theorem Visited.append {nbrs : Nat → List Nat} {U : List Nat} {R : Nat → Prop}
    {S O S1 O1 S2 O2 la lb : List Nat} (h : Visited nbrs U R S O S1 O1 la)
    (h' : Visited nbrs U R S1 O1 S2 O2 lb) : Visited nbrs U R S O S2 O2 (la ++ lb) := by
  refine ⟨?_, ?_, ?_, ?_, h'.snd, h'.sub, ?_, h.later.append h'.later, ?_⟩
  · rw [h'.order, h.order, List.append_assoc]
  · rw [List.nodup_append]
    refine ⟨h.nodup, h'.nodup, ?_⟩
    intro a ha b hb e
    subst e
    exact h'.fresh a hb ((h.seen a).2 (.inr ha))
  · intro x hx
    rcases List.mem_append.1 hx with hx | hx
    · exact h.fresh x hx
    · exact fun hs => h'.fresh x hx ((h.seen x).2 (.inl hs))
  · intro x
    rw [h'.seen, h.seen, List.mem_append, or_assoc]
  · intro x hx c hc
    rcases List.mem_append.1 hx with hx | hx
    · exact (h'.seen c).2 (.inl (h.closed x hx c hc))
    · exact h'.closed x hx c hc
  · refine h.topo.append ?_
    refine Topo.mono ?_ ?_ h'.topo
    · intro x _ c hc
      rcases (h.seen c).1 hc with hc | hc
      · exact .inl hc
      · exact .inr (.inl (by simpa using hc))
    · simp

theorem Visited.length {nbrs : Nat → List Nat} {U : List Nat} {R : Nat → Prop}
    {S O S' O' l : List Nat} (h : Visited nbrs U R S O S' O' l) (hn : S.Nodup) :
    S.length ≤ S'.length :=
  hn.length_le_of_subset (fun x hx => (h.seen x).2 (.inl hx))

theorem visit_spec {nbrs : Nat → List Nat} {U : List Nat}
    (hU : ∀ x ∈ U, ∀ c ∈ nbrs x, c ∈ U) : ∀ (fuel : Nat),
    (∀ {n : Nat} {S O : List Nat}, S.Nodup → (∀ x ∈ S, x ∈ U) → n ∈ U →
      U.length + 1 ≤ fuel + S.length →
      ∃ S' O' l, visit nbrs fuel n (S, O) = some (S', O') ∧
        Visited nbrs U (fun x => x = n) S O S' O' l ∧ n ∈ S' ∧ (n ∉ S → ∃ l', l = l' ++ [n])) ∧
    (∀ {cs S O : List Nat}, S.Nodup → (∀ x ∈ S, x ∈ U) → (∀ c ∈ cs, c ∈ U) →
      U.length + 1 ≤ fuel + S.length →
      ∃ S' O' l, cs.foldlM (fun s c => visit nbrs fuel c s) (S, O) = some (S', O') ∧
        Visited nbrs U (fun x => x ∈ cs) S O S' O' l ∧ ∀ c ∈ cs, c ∈ S') := by
  intro fuel
  induction fuel with
  | zero =>
    have no : ∀ {S : List Nat}, S.Nodup → (∀ x ∈ S, x ∈ U) → ¬ (U.length + 1 ≤ 0 + S.length) := by
      intro S h1 h2 h3
      have := h1.length_le_of_subset (l₂ := U) h2
      omega
    exact ⟨fun h1 h2 _ h4 => absurd h4 (no h1 h2), fun h1 h2 _ h4 => absurd h4 (no h1 h2)⟩
  | succ fuel ih =>
    have hvisit : ∀ {n : Nat} {S O : List Nat}, S.Nodup → (∀ x ∈ S, x ∈ U) → n ∈ U →
      U.length + 1 ≤ (fuel + 1) + S.length →
      ∃ S' O' l, visit nbrs (fuel + 1) n (S, O) = some (S', O') ∧
        Visited nbrs U (fun x => x = n) S O S' O' l ∧ n ∈ S' ∧
        (n ∉ S → ∃ l', l = l' ++ [n]) := by
      intro n S O hnd hsub hn hf
      by_cases hs : n ∈ S
      · exact ⟨S, O, [], by simp [visit, hs], Visited.nil hnd hsub, hs, fun h => absurd hs h⟩
      · have hnd' : (S ++ [n]).Nodup := nodup_snoc hnd hs
        have hsub' : ∀ x ∈ S ++ [n], x ∈ U := by
          intro x hx
          rcases List.mem_append.1 hx with hx | hx
          · exact hsub x hx
          · simp only [List.mem_singleton] at hx
            subst hx; exact hn
        obtain ⟨S', O', l, e, hv, hc⟩ := ih.2 (cs := nbrs n) (O := O) hnd' hsub'
          (fun c hc => hU n hn c hc) (by simp only [List.length_append, List.length_singleton]; omega)
        have hnl : n ∉ l := fun h => hv.fresh n h (by simp)
        have hlater : Later nbrs (fun x => x = n) (l ++ [n]) := hv.later.snoc
        refine ⟨S', O' ++ [n], l ++ [n], ?_, ⟨?_, ?_, ?_, ?_, hv.snd, hv.sub, ?_, hlater, ?_⟩, ?_, fun _ => ⟨l, rfl⟩⟩
        · simp only [visit, hs, if_false, e, Option.bind_eq_bind, Option.bind_some]
        · rw [hv.order, List.append_assoc]
        · exact nodup_snoc hv.nodup hnl
        · intro x hx
          rcases List.mem_append.1 hx with hx | hx
          · exact fun h => hv.fresh x hx (List.mem_append_left _ h)
          · simp only [List.mem_singleton] at hx
            subst hx; exact hs
        · intro x
          rw [hv.seen]
          simp only [List.mem_append, List.mem_singleton]
          constructor
          · rintro ((h | h) | h)
            · exact .inl h
            · exact .inr (.inr h)
            · exact .inr (.inl h)
          · rintro (h | h | h)
            · exact .inl (.inl h)
            · exact .inr h
            · exact .inl (.inr h)
        · intro x hx c hcx
          rcases List.mem_append.1 hx with hx | hx
          · exact hv.closed x hx c hcx
          · simp only [List.mem_singleton] at hx
            subst hx
            exact hc c hcx
        · refine Topo.append ?_ ⟨?_, trivial⟩
          · refine Topo.mono ?_ (by simp) hv.topo
            intro x hx c hc'
            rcases List.mem_append.1 hc' with h | h
            · exact .inl h
            · simp only [List.mem_singleton] at h
              subst h
              exact .inr (.inr (hlater.reach x (List.mem_append_left _ hx)))
          · intro c hcn
            rcases (hv.seen c).1 (hc c hcn) with h | h
            · rcases List.mem_append.1 h with h | h
              · exact .inl h
              · simp only [List.mem_singleton] at h
                subst h
                exact .inr (.inr .refl)
            · exact .inr (.inl (by simpa using h))
        · exact (hv.seen n).2 (.inl (by simp))
    refine ⟨hvisit, ?_⟩
    intro cs
    induction cs with
    | nil =>
      intro S O hnd hsub _ _
      exact ⟨S, O, [], rfl, Visited.nil hnd hsub, by simp⟩
    | cons c cs ihc =>
      intro S O hnd hsub hcs hf
      obtain ⟨S1, O1, la, e1, v1, hc1, -⟩ := hvisit (O := O) hnd hsub (hcs c (by simp)) hf
      have hlen := v1.length hnd
      obtain ⟨S2, O2, lb, e2, v2, hc2⟩ := ihc (O := O1) v1.snd v1.sub
        (fun x hx => hcs x (List.mem_cons_of_mem _ hx)) (by omega)
      refine ⟨S2, O2, la ++ lb, ?_, ?_, ?_⟩
      · simp only [List.foldlM_cons, e1, Option.bind_eq_bind, Option.bind_some]
        exact e2
      · refine Visited.append ?_ ?_ (S1 := S1) (O1 := O1)
        · exact { v1 with later := v1.later.mono (fun x _ h => by simp [h]) }
        · exact { v2 with later := v2.later.mono (fun x _ h => by simp [h]) }
      · intro x hx
        rcases List.mem_cons.1 hx with rfl | hx
        · exact (v2.seen x).2 (.inl hc1)
        · exact hc2 x hx

/-- The postorder from `entry`, with everything later developments use. -/
structure IsPostorder (nbrs : Nat → List Nat) (entry : Nat) (po : List Nat) : Prop where
  nodup : po.Nodup
  mem : ∀ x, x ∈ po ↔ Reach (fun a b => b ∈ nbrs a) entry x
  last : ∃ l, po = l ++ [entry]
  later : Later nbrs (fun x => x = entry) po
  topo : Topo nbrs (fun _ => False) [] po

theorem postorder_spec {nbrs : Nat → List Nat} {U : List Nat}
    (hU : ∀ x ∈ U, ∀ c ∈ nbrs x, c ∈ U) {entry fuel : Nat} (he : entry ∈ U)
    (hf : U.length + 1 ≤ fuel) :
    ∃ po, postorder nbrs fuel entry = some po ∧ IsPostorder nbrs entry po := by
  obtain ⟨S', O', l, e, v, hm, hlast⟩ := (visit_spec hU fuel).1 (n := entry) (S := []) (O := [])
    (by simp) (by simp) he (by simpa using hf)
  have hO : O' = l := by simpa using v.order
  subst hO
  refine ⟨O', by simp [postorder, e], v.nodup, ?_, hlast (by simp), v.later, ?_⟩
  · intro x
    constructor
    · exact v.later.reach x
    · intro h
      have := Reach.closed (S := fun x => x ∈ S')
        (fun a b ha hb => v.closed a (by simpa using (v.seen a).1 ha) b hb) hm h
      simpa using (v.seen x).1 this
  · refine Topo.mono ?_ (by simp) v.topo
    simp

end Verif.Graph
