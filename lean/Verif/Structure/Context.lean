import Verif.Structure.Ends
import Verif.Dom.Theorems
/-!
# What the analyses give the structurer
-/

namespace Verif.Structure

open Verif.Graph Verif.Dom

variable {ι α : Type}

/-! ## The augmented graph -/

theorem virtualExit_spec (labels : List Nat) : ∀ (fuel e : Nat),
    (∀ i, i < fuel → e - i ∈ labels) ∨ virtualExit labels fuel e ∉ labels
  | 0, e => .inl (fun i h => by omega)
  | fuel + 1, e => by
    by_cases h : e ∈ labels
    · rcases virtualExit_spec labels fuel (e - 1) with h1 | h1
      · left
        intro i hi
        cases i with
        | zero => simpa using h
        | succ i =>
          have := h1 i (by omega)
          rwa [show e - (i + 1) = e - 1 - i by omega]
      · right
        simpa [virtualExit, h] using h1
    · right
      simpa [virtualExit, h] using h

theorem virtualExit_fresh {labels ls : List Nat} (hs : labels.length < 4294967296)
    (hl : ls.length = labels.length) (hm : ∀ y, y ∈ ls ↔ y ∈ labels) :
    virtualExit ls (ls.length + 1) 4294967295 ∉ labels := by
  rcases virtualExit_spec ls (ls.length + 1) 4294967295 with h | h
  · exfalso
    have hn : ((List.range (ls.length + 1)).map (fun i => 4294967295 - i)).Nodup := by
      simp only [List.Nodup, List.pairwise_map]
      refine List.Pairwise.imp_of_mem ?_ List.pairwise_lt_range
      intro a b ha hb hlt
      rw [List.mem_range] at ha hb
      omega
    have := hn.length_le_of_subset (l₂ := ls) (by
      intro y hy
      obtain ⟨i, hi, rfl⟩ := List.mem_map.1 hy
      exact h i (List.mem_range.1 hi))
    simp at this
    omega
  · exact fun h' => h ((hm _).2 h')

theorem connectAll_spec (exit : Nat) : ∀ (ls : List Nat) {g : Graph}, WF g →
    WF (ls.foldl (fun g n => g.connect n exit) g) ∧
    (∀ a b, b ∈ (ls.foldl (fun g n => g.connect n exit) g).children a ↔
      b ∈ g.children a ∨ (a ∈ ls ∧ b = exit)) ∧
    (∀ k, k ∈ (ls.foldl (fun g n => g.connect n exit) g).labels → k ∈ g.labels ∨ k ∈ ls ∨ k = exit)
  | [], g, w => ⟨w, by simp, fun k h => .inl h⟩
  | n :: ls, g, w => by
    obtain ⟨h1, h2, h3⟩ := connectAll_spec exit ls (wf_connect w n exit)
    refine ⟨h1, ?_, ?_⟩
    · intro a b
      simp only [List.foldl_cons]
      rw [h2, children_connect]
      by_cases ha : a = n
      · subst ha
        simp only [if_true, mem_setInsert, List.mem_cons, true_or, true_and]
        constructor
        · rintro ((h | h) | ⟨-, h⟩)
          · exact .inl h
          · exact .inr h
          · exact .inr h
        · rintro (h | h)
          · exact .inl (.inl h)
          · exact .inl (.inr h)
      · simp [ha]
    · intro k hk
      simp only [List.foldl_cons] at hk
      rcases h3 k hk with h | h | h
      · rcases mem_labels_connect.1 h with h | h | h
        · exact .inl h
        · exact .inr (.inl (by simp [h]))
        · exact .inr (.inr h)
      · exact .inr (.inl (List.mem_cons_of_mem _ h))
      · exact .inr (.inr h)

/-- The edges of the augmented graph, backwards. -/
def Rev (g : Graph) (a b : Nat) : Prop := b ∈ (augment g).1.parents a

theorem rev_iff {g : Graph} (w : WF g) (a b : Nat) : Rev g a b ↔ a ∈ (augment g).1.children b :=
  ((connectAll_spec _ _ w).1.sym b a).symm

theorem rev_edge {g : Graph} (w : WF g) {a b : Nat} (h : g.Edge a b) : Rev g b a :=
  (rev_iff w b a).2 (((connectAll_spec _ _ w).2.1 a b).2 (.inl h))

theorem rev_exit {g : Graph} (w : WF g) {z : Nat} (hz : z ∈ g.labels) (h : g.children z = []) :
    Rev g (augment g).2 z := by
  refine (rev_iff w _ z).2 (((connectAll_spec _ _ w).2.1 z _).2 (.inr ⟨?_, rfl⟩))
  simp [List.mem_filter, Graph.labelsSorted, mem_sortLabels, hz, h]

theorem postdom_aux {g : Graph} (w : WF g) {fuel : Nat} (hf : g.labels.length + 3 ≤ fuel) :
    ∃ pd, calculatePostDom g fuel = some pd ∧ IsTree (Rev g) (augment g).2 pd := by
  have hc := connectAll_spec (augment g).2
    (g.labelsSorted.filter (fun l => (g.children l).isEmpty || inSink g l)) w
  obtain ⟨d, e, t⟩ := calculate_tree (nbrs := (augment g).1.parentsSorted)
    (preds := (augment g).1.childrenSorted) (U := (augment g).2 :: g.labels)
    (fun x _ c hc' => by
      have := mem_labels_of_child ((hc.1.sym c x).2 (mem_sortLabels.1 hc'))
      rcases hc.2.2 c this with h | h | h
      · exact List.mem_cons_of_mem _ h
      · exact List.mem_cons_of_mem _ (mem_sortLabels.1 (List.mem_filter.1 h).1)
      · exact h ▸ List.mem_cons_self)
    (fun a b => by
      simp only [Graph.childrenSorted, Graph.parentsSorted, mem_sortLabels]
      exact hc.1.sym b a)
    (entry := (augment g).2) (fuel := fuel) (by simp) (by simpa using hf)
  have hr : (fun a b => b ∈ (augment g).1.parentsSorted a) = Rev g := by
    funext a b
    simp only [Graph.parentsSorted, mem_sortLabels, Rev]
  rw [hr] at t
  exact ⟨d, e, t⟩

theorem postdom_some {g : Graph} (w : WF g) {fuel : Nat} (hf : g.labels.length + 3 ≤ fuel) :
    ∃ pd, calculatePostDom g fuel = some pd :=
  let ⟨pd, h, _⟩ := postdom_aux w hf
  ⟨pd, h⟩

theorem postdom_tree {g : Graph} (w : WF g) {fuel : Nat} {pd : Dom} (hf : g.labels.length + 3 ≤ fuel)
    (h : calculatePostDom g fuel = some pd) : IsTree (Rev g) (augment g).2 pd := by
  obtain ⟨d, e, t⟩ := postdom_aux w hf
  rw [h] at e
  obtain rfl := Option.some.inj e
  exact t

theorem exit_fresh {g : Graph} (hs : g.labels.length < 4294967296) : (augment g).2 ∉ g.labels :=
  virtualExit_fresh hs (sortLabels_perm.length_eq) (fun _ => mem_sortLabels)

/-! ## Joins -/

section
variable {E : Nat → Nat → Prop} {e : Nat} {d : Dom}

theorem idomOf_dom (t : IsTree E e d) {n p : Nat} (h : d.idomOf n = some p) : Dominates E e p n := by
  by_cases hr : ¬ Reach E e n ∨ n = e
  · rw [t.noIdom n hr] at h; cases h
  · obtain ⟨q, hq, hi, -⟩ := t.idom n (Classical.not_not.1 (fun h => hr (.inl h))) (fun h => hr (.inr h))
    rw [h] at hq
    cases hq
    exact hi.1.1

theorem ancestors_dom (t : IsTree E e d) : ∀ (fuel n : Nat), ∀ y ∈ ancestors d fuel n,
    Dominates E e y n
  | 0, _, y, h => by simp [ancestors] at h
  | fuel + 1, n, y, h => by
    simp only [ancestors, List.mem_cons] at h
    rcases h with rfl | h
    · exact dom_self
    · cases hp : d.idomOf n with
      | none => simp [hp] at h
      | some p =>
        simp only [hp] at h
        split at h
        · simp at h
        · exact dom_trans (ancestors_dom t fuel p y h) (idomOf_dom t hp)

theorem firstAncestor_dom (t : IsTree E e d) (anc : List Nat) : ∀ (fuel n : Nat),
    firstAncestor d anc fuel n = e ∨
      (firstAncestor d anc fuel n ∈ anc ∧ Dominates E e (firstAncestor d anc fuel n) n)
  | 0, _ => .inl t.entryEq
  | fuel + 1, n => by
    unfold firstAncestor
    by_cases h : n ∈ anc
    · rw [if_pos h]
      exact .inr ⟨h, dom_self⟩
    · rw [if_neg h]
      cases hp : d.idomOf n with
      | none => exact .inl t.entryEq
      | some p =>
        dsimp only
        split
        · exact .inl t.entryEq
        · rcases firstAncestor_dom t anc fuel p with h1 | ⟨h1, h2⟩
          · exact .inl h1
          · exact .inr ⟨h1, dom_trans h2 (idomOf_dom t hp)⟩

theorem nearestCommon_dom (t : IsTree E e d) (a b : Nat) (h : nearestCommon d a b ≠ e) :
    Dominates E e (nearestCommon d a b) a ∧ Dominates E e (nearestCommon d a b) b := by
  unfold nearestCommon at h ⊢
  by_cases hab : (a == b) = true
  · simp only [hab, if_true]
    obtain rfl : a = b := by simpa using hab
    exact ⟨dom_self, dom_self⟩
  · simp only [hab] at h ⊢
    rcases firstAncestor_dom t (d.entry :: ancestors d (d.postorder.length + 1) a)
      (d.postorder.length + 1) b with h1 | ⟨h1, h2⟩
    · exact absurd h1 h
    · refine ⟨?_, h2⟩
      rcases List.mem_cons.1 h1 with h3 | h3
      · exact absurd (h3.trans t.entryEq) h
      · exact ancestors_dom t _ _ _ h3
end

theorem walk_rev {g : Graph} {e z : Nat} {p : List Nat} (h : Walk g.Edge e p z)
    {E' : Nat → Nat → Prop} (hE : ∀ a b, g.Edge a b → E' b a) : Walk E' z p.reverse e := by
  induction h with
  | start => exact .start
  | step _ h2 ih =>
    rw [List.reverse_append]
    exact walk_cons (hE _ _ h2) ih

/-- The join is on every path from a branch to the end of the program. -/
theorem join_on_path {g : Graph} (w : WF g) {pd : Dom} (t : IsTree (Rev g) (augment g).2 pd) {a b e z : Nat}
    {p : List Nat} (he : e = a ∨ e = b) (hel : e ∈ g.labels) (hp : Walk g.Edge e p z)
    (hz : g.children z = []) (hj : nearestCommon pd a b ≠ (augment g).2) :
    nearestCommon pd a b ∈ p := by
  have hzl : z ∈ g.labels := by
    cases hp with
    | start => exact hel
    | step _ h => exact w.child_label h
  have hw : Walk (Rev g) (augment g).2 ((augment g).2 :: p.reverse) e :=
    walk_cons (rev_exit w hzl hz) (walk_rev hp (fun a b h => rev_edge w h))
  obtain ⟨h1, h2⟩ := nearestCommon_dom t a b hj
  have : nearestCommon pd a b ∈ (augment g).2 :: p.reverse := by
    rcases he with rfl | rfl
    · exact h1 _ hw
    · exact h2 _ hw
  rcases List.mem_cons.1 this with h | h
  · exact absurd h hj
  · simpa using h

/-! ## Loops -/

theorem walk_child {E : Nat → Nat → Prop} {a b y : Nat} {l : List Nat} (h : Walk E a l b) (hy : y ∈ l)
    (hb : y ≠ b) : ∃ c, E y c := by
  induction h with
  | start => exact absurd (by simpa using hy) hb
  | @step l b c _ h2 ih =>
    rcases List.mem_append.1 hy with h | h
    · by_cases e : y = b
      · exact ⟨c, e ▸ h2⟩
      · exact ih h e
    · exact absurd (by simpa using h) hb

theorem loop_header_in {E : Nat → Nat → Prop} {e h n : Nat} (hn : InNaturalLoop E e h n) :
    InNaturalLoop E e h h := by
  obtain ⟨t, h1, h2, h3, -⟩ := hn
  exact ⟨t, h1, h2, h3, .inl rfl⟩

theorem loop_child {E : Nat → Nat → Prop} {e h n : Nat} (hn : InNaturalLoop E e h n) : ∃ c, E n c := by
  obtain ⟨t, h1, h2, h3, h4⟩ := hn
  have key : ∀ y l a, Walk E a l t → y ∈ l → ∃ c, E y c := by
    intro y l a hl hy
    by_cases hyt : y = t
    · exact ⟨h, hyt ▸ h2⟩
    · exact walk_child hl hy hyt
  rcases h4 with rfl | ⟨-, l, hl, -⟩
  · obtain ⟨l, hl⟩ := walk_of_reach h1
    exact key _ l _ hl (h3 l hl)
  · exact key _ l _ hl (walk_start_mem hl)

theorem parentStep_spec (i : Nat) (ns : List Nat) (es : List (LoopInfo × Nat)) :
    ∀ (s : Option (Nat × Nat) × Bool) (h sz : Nat),
    (es.foldl (parentStep i ns) s).1 = some (h, sz) → s.1 = some (h, sz) ∨
      ∃ e ∈ es, e.1.header = h ∧ ns.length < e.1.nodes.length ∧ isSubset ns e.1.nodes = true := by
  induction es with
  | nil => intro s h sz hs; exact .inl hs
  | cons e es ih =>
    intro s h sz hs
    simp only [List.foldl_cons] at hs
    rcases ih _ h sz hs with h1 | ⟨e', h1, h2⟩
    · unfold parentStep at h1
      split at h1
      · exact .inl h1
      · split at h1
        · rename_i hc
          rw [Bool.and_eq_true, decide_eq_true_eq] at hc
          have key : ∀ r : Bool,
              (if r = true then (some (e.1.header, e.1.nodes.length), s.2) else s).1 = some (h, sz) →
              s.1 = some (h, sz) ∨ ∃ e' ∈ e :: es, e'.1.header = h ∧
                ns.length < e'.1.nodes.length ∧ isSubset ns e'.1.nodes = true := by
            intro r hr
            cases r with
            | false => exact .inl hr
            | true =>
              simp only [if_true, Option.some.injEq, Prod.mk.injEq] at hr
              exact .inr ⟨e, by simp, hr.1, hc.1, hc.2⟩
          exact key _ h1
        · split at h1
          · exact .inl h1
          · exact .inl h1
    · exact .inr ⟨e', List.mem_cons_of_mem _ h1, h2⟩

theorem isSubset_iff {a b : List Nat} : isSubset a b = true ↔ ∀ y ∈ a, y ∈ b := by
  simp [isSubset]

theorem forest_spec (g : Graph) (pd : Dom) (raw : List (Nat × List Nat)) (k : Nat) (info : LoopInfo)
    (h : (LoopForest.new g pd raw).loops[k]? = some info) :
    raw.lookup info.header = some info.nodes ∧
    ∀ p, info.parent = some p → ∃ ns, raw.lookup p = some ns ∧ info.nodes.length < ns.length ∧
      ∀ y ∈ info.nodes, y ∈ ns := by
  have base : ∀ i ∈ (sortLabels (raw.map (·.1))).map (fun h =>
      LoopInfo.mk h ((raw.lookup h).getD []) (follow g pd ((raw.lookup h).getD [])) none),
      raw.lookup i.header = some i.nodes := by
    intro i hi
    obtain ⟨h, hh, rfl⟩ := List.mem_map.1 hi
    have := mem_keys_iff.1 (mem_sortLabels.1 hh)
    obtain ⟨l, hl⟩ := Option.isSome_iff_exists.1 this
    simp [hl]
  simp only [LoopForest.new] at h
  generalize hL : (sortLabels (raw.map (·.1))).map (fun h =>
      LoopInfo.mk h ((raw.lookup h).getD []) (follow g pd ((raw.lookup h).getD [])) none) = loops at *
  rw [List.getElem?_map, Option.map_eq_some_iff] at h
  obtain ⟨⟨a, b⟩, he, rfl⟩ := h
  rw [List.getElem?_zip_eq_some] at he
  obtain ⟨h1, h2⟩ := he
  have ha : a ∈ loops := List.mem_of_getElem? h1
  refine ⟨base a ha, ?_⟩
  intro p hp
  rw [List.getElem?_map, List.getElem?_zipIdx, h1] at h2
  simp only [Option.map_some, Option.some.injEq] at h2
  subst h2
  obtain ⟨⟨q, sz⟩, hq, rfl⟩ := Option.map_eq_some_iff.1 hp
  rcases parentStep_spec _ _ _ _ q sz hq with h3 | ⟨e, h3, rfl, h5, h6⟩
  · cases h3
  · have he : e.1 ∈ loops := by
      have := List.mem_map_of_mem (f := Prod.fst) h3
      rwa [List.zipIdx_map_fst] at this
    exact ⟨e.1.nodes, base e.1 he, h5, isSubset_iff.1 h6⟩

theorem labelForHeader_spec {f : LoopForest} {h k : Nat} (hk : f.labelForHeader h = some k) :
    ∃ info, f.loops[k]? = some info ∧ info.header = h := by
  simp only [LoopForest.labelForHeader, List.findIdx?_eq_some_iff_getElem] at hk
  obtain ⟨hlt, h1, -⟩ := hk
  exact ⟨f.loops[k], by simp [hlt], by simpa using h1⟩

theorem ancestor_spec (g : Graph) (pd : Dom) (raw : List (Nat × List Nat)) (node : Nat) :
    ∀ (fuel k a : Nat), (LoopForest.new g pd raw).ancestor node fuel k = some a → ∀ info,
    (LoopForest.new g pd raw).loops[k]? = some info → ∃ h ns, raw.lookup h = some ns ∧
      info.nodes.length < ns.length ∧ ∀ y ∈ info.nodes, y ∈ ns
  | 0, k, a, h, _, _ => by simp [LoopForest.ancestor] at h
  | fuel + 1, k, a, h, info, hk => by
    simp only [LoopForest.ancestor] at h
    cases hp : (LoopForest.new g pd raw).parentOf k with
    | none => simp [hp] at h
    | some p =>
      simp only [LoopForest.parentOf, hk, Option.bind_eq_bind, Option.bind_some,
        Option.bind_eq_some_iff] at hp
      obtain ⟨h', h1, -⟩ := hp
      exact ⟨h', (forest_spec g pd raw k info hk).2 h' h1⟩

/-! ## The context -/

theorem mem_reachSet {g : Graph} (w : WF g) (n y : Nat) : y ∈ reachSet g n ↔ Reach g.Edge n y := by
  obtain ⟨s, hs, h⟩ := bfs_spec w (entry := n) (fuel := g.labels.length + 2) (seen := [n]) (queue := [n])
    (by simp) (by simp) (by simpa using Reach.refl) (by simp) (by simp) (by simp) (by simp)
  rw [reachSet, hs]
  exact h y

theorem context_sound {P : Prog ι α} (hw : WellFormed P) (hf : Fair P) {x : Ctx ι α}
    (h : context P = some x) : x.prog = P ∧ x.reachable = reachSet P.graph P.entry ∧
    Sound x (fun y => y ≠ (augment P.graph).2) := by
  obtain ⟨ops, hops⟩ := hw.built
  have w := ((C26_history ops).2 _ hops).wf
  have hfresh := exit_fresh hw.small
  simp only [context, Option.bind_eq_bind, Option.bind_eq_some_iff, Option.some.injEq] at h
  obtain ⟨dom, hdom, pd, hpd, doms, hdoms, pdoms, hpdoms, raw, hraw, rfl⟩ := h
  have td := tree_of_eq hops (by omega) hdom
  have tp := postdom_tree w (by omega) hpd
  obtain ⟨raw', hraw', hloops⟩ := td.findLoops_spec w
  rw [hraw] at hraw'
  cases hraw'
  have hnode : ∀ hd ns, raw.lookup hd = some ns → (∀ n, n ∈ ns ↔ InNaturalLoop P.graph.Edge P.entry hd n) ∧
      hd ∈ ns := by
    intro hd ns hl
    rcases hloops hd with ⟨l, h1, -, ⟨t, hb⟩, h2⟩ | ⟨h1, -⟩
    · rw [hl] at h1
      cases h1
      exact ⟨h2, (h2 hd).2 ⟨t, hb.1, hb.2.1, hb.2.2, .inl rfl⟩⟩
    · rw [hl] at h1; cases h1
  have hreal : ∀ n c, P.graph.Edge n c → n ≠ (augment P.graph).2 := by
    rintro n c he rfl
    exact hfresh (mem_labels_of_child he)
  refine ⟨rfl, rfl, ?_⟩
  constructor
  · intro l b c t f hl hg
    exact ⟨(hw.jump l b c t f hl hg t).2 (.inl rfl), (hw.jump l b c t f hl hg f).2 (.inr rfl)⟩
  · intro l r b c t f hr hl hg
    simp only [findConds] at hr
    split at hr
    · simp only [regionOf, succPair] at hr
      dsimp only at hl
      simp only [hl, Option.bind_some, hg] at hr
      split at hr
      · cases hr
      · split at hr
        · cases hr; exact ⟨rfl, rfl⟩
        · cases hr
    · cases hr
  · intro l r hr hre e z p he hp hz
    simp only [findConds] at hr
    split at hr
    · simp only [regionOf] at hr
      split at hr
      · cases hr
      · rename_i t f hpair
        split at hr
        · cases hr
        · split at hr
          · cases hr
            have hel : ∀ y, y = t ∨ y = f → y ∈ P.graph.labels := by
              intro y hy
              simp only [succPair] at hpair
              split at hpair
              · rename_i c t' f' hlast
                cases hpair
                obtain ⟨b, hb, hlast⟩ := Option.bind_eq_some_iff.1 hlast
                exact w.child_label ((hw.jump l b c t f hb hlast y).2 hy)
              · split at hpair
                · rename_i hch
                  cases hpair
                  refine w.child_label (a := l) (mem_sortLabels.1 ?_)
                  rw [Graph.childrenSorted] at hch
                  rw [hch]
                  simpa using hy
                · cases hpair
            exact join_on_path w tp he (hel e he) hp hz hre
          · cases hr
    · cases hr
  · intro l hl
    have hr := (mem_reachSet w P.entry l).1 hl
    have hle : l = P.entry ∨ l ∈ P.graph.labels := by
      cases hr with
      | step _ he => exact .inr (w.child_label he)
      | refl => exact .inl rfl
    intro hex
    rcases hle with hle | hle
    · rw [hle] at hex
      rcases hw.inGraph with h0 | h0
      · have h1 := hw.entry
        have : P.graph.labelsSorted = [] := by simp [Graph.labelsSorted, h0, sortLabels]
        have h2 : (augment P.graph).2 = 4294967295 := by
          simp [augment, this, virtualExit]
        omega
      · exact hfresh (hex ▸ h0)
    · exact hfresh (hex ▸ hle)
  · intro k info hk
    obtain ⟨h1, -⟩ := forest_spec _ _ _ k info hk
    obtain ⟨h2, h3⟩ := hnode _ _ h1
    have hc : ∀ n ∈ info.nodes, ∃ c, P.graph.Edge n c := fun n hn => loop_child ((h2 n).1 hn)
    refine ⟨?_, ?_⟩
    · obtain ⟨c, hc⟩ := hc _ h3
      exact hreal _ c hc
    · intro n hn
      obtain ⟨c, hc⟩ := hc n hn
      refine ⟨hreal _ c hc, ?_⟩
      intro h0
      have : c ∈ P.graph.children n := hc
      dsimp only at h0
      rw [h0] at this
      cases this
  · intro k info b c t f hk hl hg hfn htn
    obtain ⟨h1, -⟩ := forest_spec _ _ _ k info hk
    obtain ⟨h2, -⟩ := hnode _ _ h1
    exact absurd ((h2 t).2 (hf.guard _ b c t f hl hg ((h2 f).1 hfn))) htn
  · intro k info l s hk hl hc hs _
    cases ha : (LoopForest.new P.graph pd raw).ancestor s (LoopForest.new P.graph pd raw).loops.length k with
    | none => rfl
    | some a =>
      exfalso
      obtain ⟨h', ns, e1, e2, e3⟩ := ancestor_spec _ _ _ s _ k a ha info hk
      obtain ⟨h1, -⟩ := forest_spec _ _ _ k info hk
      obtain ⟨h2, h3⟩ := hnode _ _ h1
      obtain ⟨h4, -⟩ := hnode _ _ e1
      refine hs (hf.inner info.header h' l s ?_ ((h4 _).1 (e3 _ h3)) ((h2 l).1 hl) hc)
      rintro rfl
      rw [h1] at e1
      cases e1
      omega

/-- A program without edges is one block. -/
theorem structure_single {P : Prog ι α} (h0 : P.graph.labels = []) (he : P.entry = 0) {x : Ctx ι α}
    (h : context P = some x) (fuel : Nat) : x.structure fuel ≠ some none := by
  obtain ⟨⟨nodes⟩, bs, entry⟩ := P
  have hn : nodes = [] := by simpa [Graph.labels] using h0
  subst hn
  dsimp only at he
  subst he
  have hx : ∃ conds, x = ⟨⟨⟨[]⟩, bs, 0⟩, conds, ⟨[], true⟩, [0]⟩ ∧ ∀ l, conds l = none :=
    ⟨findConds _ _ _ _, (Option.some.inj (h.symm.trans rfl)), fun l => by simp [findConds, Graph.labels]⟩
  obtain ⟨conds, rfl, hc⟩ := hx
  match fuel with
  | 0 => simp [Ctx.structure, Ctx.walk]
  | fuel + 1 =>
    have ho : Ctx.opens (⟨⟨⟨[]⟩, bs, 0⟩, conds, ⟨[], true⟩, [0]⟩ : Ctx ι α) none 0 = none := rfl
    have hb : Ctx.branches (⟨⟨⟨[]⟩, bs, 0⟩, conds, ⟨[], true⟩, [0]⟩ : Ctx ι α) 0 = none := by
      simp [Ctx.branches, hc]
    have hh : Ctx.isHeader (⟨⟨⟨[]⟩, bs, 0⟩, conds, ⟨[], true⟩, [0]⟩ : Ctx ι α) none 0 = false := rfl
    have hch : (⟨[]⟩ : Graph).childrenSorted 0 = [] := rfl
    cases hl : bs.lookup 0 with
    | none =>
      simp [Ctx.structure, Ctx.walk, Ctx.node, ho, hb, hh, Ctx.structBlock, hl, Res.bind]
    | some b =>
      cases fuel with
      | zero =>
        simp [Ctx.structure, Ctx.walk, Ctx.node, ho, hb, hh, Ctx.structBlock, hl, hch, Res.bind]
      | succ fuel =>
        simp [Ctx.structure, Ctx.walk, Ctx.node, ho, hb, hh, Ctx.structBlock, hl, hch, Res.bind,
          isSubset]

end Verif.Structure
