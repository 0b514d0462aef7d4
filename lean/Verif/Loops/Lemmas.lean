import Verif.Loops.Model
import Verif.Dom.Theorems
/-!
# Natural loops nest
-/

namespace Verif.Loops

open Verif.Graph Verif.Dom

section graph
variable {E : Nat → Nat → Prop} {entry : Nat}

theorem walk_split {a b x : Nat} {l : List Nat} (h : Walk E a l b) (hx : x ∈ l) :
    ∃ l1 l2, l = l1 ++ x :: l2 ∧ Walk E a (l1 ++ [x]) x ∧ Walk E x (x :: l2) b := by
  induction h with
  | start =>
    obtain rfl := List.mem_singleton.1 hx
    exact ⟨[], [], rfl, .start, .start⟩
  | @step l b c h e ih =>
    rcases List.mem_append.1 hx with hx | hx
    · obtain ⟨l1, l2, rfl, h1, h2⟩ := ih hx
      exact ⟨l1, l2 ++ [c], by simp, h1, by simpa using Walk.step h2 e⟩
    · obtain rfl := List.mem_singleton.1 hx
      exact ⟨l, [], rfl, .step h e, .start⟩

theorem walk_append {a b c : Nat} {l m : List Nat} (h : Walk E a l b) (k : Walk E b m c) :
    ∃ t, m = b :: t ∧ Walk E a (l ++ t) c := by
  induction k with
  | start => exact ⟨[], rfl, by simpa using h⟩
  | @step _ _ z _ e ih =>
    obtain ⟨t, rfl, k⟩ := ih
    exact ⟨t ++ [z], by simp, by rw [← List.append_assoc]; exact .step k e⟩

theorem dom_linear {n x y : Nat} (hn : Reach E entry n) (hx : Dominates E entry x n)
    (hy : Dominates E entry y n) : Dominates E entry x y ∨ Dominates E entry y x := by
  induction hn with
  | refl =>
    obtain rfl := dom_of_entry hx
    exact .inl dom_entry
  | @step b c h e ih =>
    by_cases h1 : x = c
    · subst h1; exact .inr hy
    · by_cases h2 : y = c
      · subst h2; exact .inl hx
      · exact ih (dom_pred hx h1 e) (dom_pred hy h2 e)

theorem loop_reach {h n : Nat} (hn : InNaturalLoop E entry h n) : Reach E entry n := by
  obtain ⟨t, h1, h2, h3, rfl | ⟨h4, -⟩⟩ := hn
  · exact .step h1 h2
  · exact h4

theorem loop_dom {h n : Nat} (hn : InNaturalLoop E entry h n) : Dominates E entry h n := by
  obtain ⟨t, h1, h2, h3, rfl | ⟨h4, l, hl, hh⟩⟩ := hn
  · exact dom_self
  · intro m hm
    obtain ⟨s, rfl, hw⟩ := walk_append hm hl
    rcases List.mem_append.1 (h3 _ hw) with k | k
    · exact k
    · exact absurd (List.mem_cons_of_mem _ k) hh

/-- A loop whose header is strictly dominated by the header of a loop that shares a node with it is
inside that loop. -/
theorem loop_inside {h k x : Nat} (hk : h ≠ k) (hx : InNaturalLoop E entry h x)
    (kx : InNaturalLoop E entry k x) (hd : Dominates E entry h k) :
    (∀ y, InNaturalLoop E entry k y → InNaturalLoop E entry h y) ∧ ¬ InNaturalLoop E entry k h := by
  have reachk : Reach E entry k := dom_reach (loop_reach kx) (loop_dom kx)
  have notIn : ¬ InNaturalLoop E entry k h := fun c => hk (dom_antisymm reachk hd (loop_dom c))
  refine ⟨?_, notIn⟩
  obtain ⟨t, h1, h2, h3, rfl | ⟨h4, lx, hlx, hhx⟩⟩ := hx
  · exact absurd kx notIn
  -- from `k` to `x` and on to the latch, past `h`
  have tail : ∃ m, Walk E k m t ∧ h ∉ m := by
    obtain ⟨l0, hl0⟩ := walk_of_reach h4
    obtain ⟨l1, hl1, nd, -⟩ := walk_simple hl0
    obtain ⟨p, q, rfl, w1, w2⟩ := walk_split hl1 (loop_dom kx _ hl1)
    have hp : h ∈ p := by
      rcases List.mem_append.1 (hd _ w1) with c | c
      · exact c
      · exact absurd (List.mem_singleton.1 c) hk
    have hq : h ∉ q := fun c =>
      (List.nodup_append.1 nd).2.2 h hp h (List.mem_cons_of_mem _ c) rfl
    obtain ⟨s, e, w⟩ := walk_append w2 hlx
    refine ⟨_, w, ?_⟩
    intro c
    rcases List.mem_append.1 c with c | c
    · rcases List.mem_cons.1 c with c | c
      · exact hk c
      · exact hq c
    · exact hhx (e ▸ List.mem_cons_of_mem _ c)
  obtain ⟨m, wm, hm⟩ := tail
  intro y hy
  obtain ⟨u, u1, u2, u3, rfl | ⟨u4, l, hl, hkl⟩⟩ := hy
  · exact ⟨t, h1, h2, h3, .inr ⟨reachk, m, wm, hm⟩⟩
  · refine ⟨t, h1, h2, h3, .inr ⟨u4, ?_⟩⟩
    have hnl : h ∉ l := by
      intro c
      obtain ⟨p, q, rfl, w1, w2⟩ := walk_split hl c
      refine notIn ⟨u, u1, u2, u3, .inr ⟨?_, _, w2, fun c => hkl (List.mem_append_right _ c)⟩⟩
      obtain ⟨l0, hl0⟩ := walk_of_reach u4
      obtain ⟨s, -, w⟩ := walk_append hl0 w1
      exact reach_of_walk w
    obtain ⟨s, e, w⟩ := walk_append (.step hl u2) wm
    refine ⟨_, w, ?_⟩
    intro c
    rcases List.mem_append.1 c with c | c
    · rcases List.mem_append.1 c with c | c
      · exact hnl c
      · exact hk (List.mem_singleton.1 c)
    · exact hm (e ▸ List.mem_cons_of_mem _ c)

/-- Two loops with a common node are nested. -/
theorem loops_nest {h k x : Nat} (hk : h ≠ k) (hx : InNaturalLoop E entry h x)
    (kx : InNaturalLoop E entry k x) :
    ((∀ y, InNaturalLoop E entry k y → InNaturalLoop E entry h y) ∧ ¬ InNaturalLoop E entry k h) ∨
    ((∀ y, InNaturalLoop E entry h y → InNaturalLoop E entry k y) ∧ ¬ InNaturalLoop E entry h k) := by
  rcases dom_linear (loop_reach hx) (loop_dom hx) (loop_dom kx) with d | d
  · exact .inl (loop_inside hk hx kx d)
  · exact .inr (loop_inside (Ne.symm hk) kx hx d)

end graph

/-! ## Keys -/

theorem insertInto_keys {m : List (Nat × List Nat)} (k x : Nat) (h : (m.map (·.1)).Nodup) :
    ((insertInto m k x).map (·.1)).Nodup := by
  have filt : ((m.filter fun e => e.1 != k).map (·.1)).Nodup :=
    h.sublist (List.Sublist.map _ List.filter_sublist)
  unfold insertInto
  split
  · rw [List.map_cons, List.nodup_cons]
    refine ⟨?_, filt⟩
    simp
  · next hn =>
    rw [List.map_cons, List.nodup_cons]
    refine ⟨?_, h⟩
    intro c
    obtain ⟨⟨a, b⟩, he, rfl⟩ := List.mem_map.1 c
    rw [(mem_lookup h).1 he] at hn
    cases hn

theorem loopEdge_keys {g : Graph} {doms m m' : List (Nat × List Nat)} {e : Nat × Nat}
    (h : (m.map (·.1)).Nodup) (k : loopEdge g doms m e = some m') : (m'.map (·.1)).Nodup := by
  unfold loopEdge at k
  split at k
  · simp only [Option.bind_eq_bind, Option.bind_eq_some_iff, Option.some.injEq] at k
    obtain ⟨l, -, l', -, rfl⟩ := k
    rw [List.map_cons, List.nodup_cons]
    refine ⟨by simp, ?_⟩
    exact (insertInto_keys _ _ (insertInto_keys _ _ h)).sublist (List.Sublist.map _ List.filter_sublist)
  · cases k; exact h

theorem foldEdges_keys {g : Graph} {doms : List (Nat × List Nat)} (es : List (Nat × Nat)) :
    ∀ {m m' : List (Nat × List Nat)}, (m.map (·.1)).Nodup →
    es.foldlM (loopEdge g doms) m = some m' → (m'.map (·.1)).Nodup := by
  induction es with
  | nil => intro m m' h k; cases k; exact h
  | cons e es ih =>
    intro m m' h k
    simp only [List.foldlM_cons, Option.bind_eq_bind, Option.bind_eq_some_iff] at k
    obtain ⟨m1, h1, h2⟩ := k
    exact ih (loopEdge_keys h h1) h2

theorem findLoops_keys {g : Graph} {d : Dom} {raw : List (Nat × List Nat)}
    (h : findLoops g d = some raw) : (raw.map (·.1)).Nodup := by
  simp only [findLoops, Option.bind_eq_bind, Option.bind_eq_some_iff] at h
  obtain ⟨doms, -, h⟩ := h
  exact foldEdges_keys _ (by simp) h

/-! ## Sets -/

theorem isSubset_iff {a b : List Nat} : isSubset a b = true ↔ ∀ y ∈ a, y ∈ b := by
  simp [isSubset]

theorem isDisjoint_iff {a b : List Nat} : isDisjoint a b = true ↔ ∀ y ∈ a, y ∉ b := by
  simp [isDisjoint]

theorem strict_len {a b : List Nat} (ha : a.Nodup) (h : ∀ y ∈ a, y ∈ b) {x : Nat} (hx : x ∈ b)
    (hn : x ∉ a) : a.length < b.length := by
  have : (x :: a).length ≤ b.length := by
    refine (List.nodup_cons.2 ⟨hn, ha⟩).length_le_of_subset ?_
    intro y hy
    rcases List.mem_cons.1 hy with rfl | hy
    · exact hx
    · exact h y hy
  exact this

end Verif.Loops
