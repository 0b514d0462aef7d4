import Verif.Ssa.Tree
/-!
# The program after the construction
-/

namespace Verif.Ssa

open Verif.Il Verif.Graph Verif.Dom Verif.Opt

/-! ## Blocks in a frontier have two predecessors -/

theorem two_preds {E : Nat → Nat → Prop} {entry a b : Nat} (hb : Reach E entry b) (hne : b ≠ entry)
    (hr : ∀ p, E p b → Reach E entry p) (h : InFrontier E entry a b) : ∃ p q, E p b ∧ E q b ∧ p ≠ q := by
  obtain ⟨⟨p, hp, hap⟩, hs⟩ := h
  by_cases hq : ∃ q, E q b ∧ p ≠ q
  · obtain ⟨q, h1, h2⟩ := hq
    exact ⟨p, q, hp, h1, h2⟩
  · exfalso
    have hall : ∀ q, E q b → q = p := fun q h1 => by
      by_cases e : p = q
      · exact e.symm
      · exact absurd ⟨q, h1, e⟩ hq
    by_cases hab : a = b
    · subst hab
      obtain ⟨l, hl⟩ := walk_of_reach hb
      obtain ⟨l', hl', hn, -⟩ := walk_simple hl
      cases hl' with
      | start => exact hne rfl
      | @step l1 q _ h1 h2 =>
        have := hall q h2
        subst this
        have h3 := hap l1 h1
        rw [List.nodup_append] at hn
        exact hn.2.2 _ h3 _ (by simp) rfl
    · refine hs ⟨?_, hab⟩
      intro l hl
      cases hl with
      | start => exact absurd rfl hne
      | @step l1 q _ h1 h2 =>
        have := hall q h2
        subst this
        exact List.mem_append_left _ (hap l1 h1)

/-! ## Pruning and simplifying -/

theorem prunePhis_none : ∀ {is : List Inst}, (∀ i ∈ is, i.t = .phi → 2 ≤ i.labels.length) →
    prunePhis is = some ([], is)
  | [], _ => rfl
  | i :: is, h => by
    by_cases hp : i.t = .phi
    · have h1 := h i (by simp) hp
      have h2 : ¬ i.labels.length ≤ 1 := by omega
      simp [prunePhis, hp, h2, prunePhis_none (is := is) (fun j hj => h j (by simp [hj]))]
    · simp [prunePhis, hp]

theorem pruneAll_none : ∀ {bs : List (Nat × List Inst)},
    (∀ e ∈ bs, ∀ i ∈ e.2, i.t = .phi → 2 ≤ i.labels.length) → pruneAll bs = some ([], bs)
  | [], _ => rfl
  | (l, is) :: bs, h => by
    have h1 := prunePhis_none (h (l, is) (by simp))
    simp only at h1
    simp [pruneAll, h1, pruneAll_none (bs := bs) (fun e he => h e (by simp [he]))]

theorem dedup_nodup : ∀ {es : List (Nat × Arg)}, (es.map (·.1)).Nodup → dedupEntries es = es
  | [], _ => rfl
  | [e], _ => rfl
  | e :: f :: r, h => by
    have h1 : ¬ e.1 = f.1 := by
      intro he
      simp [he] at h
    rw [dedupEntries, if_neg h1, dedup_nodup (List.nodup_cons.1 h).2]

theorem simplifyEntries_phi {ps : List Nat} {t : Nat} {es : List (Nat × Arg)} (hn : (es.map (·.1)).Nodup)
    (hp : ∀ e ∈ es, e.1 ∈ ps) : simplifyEntries ps (Inst.phi t es) = sortEntries es := by
  have h1 : ((Inst.phi t es).labels.zip (Inst.phi t es).args) = es := zip_unzip' es
  have h2 : es.filter (fun e => ps.contains e.1) = es := by
    rw [List.filter_eq_self]
    intro e he
    simpa using hp e he
  rw [simplifyEntries, h1, h2]
  exact dedup_nodup (((sortEntries_perm es).map _).nodup_iff.2 hn)

theorem simplifyPhi_phi {used : Nat → Bool} {ps : List Nat} {t : Nat} {es : List (Nat × Arg)}
    (hn : (es.map (·.1)).Nodup) (hp : ∀ e ∈ es, e.1 ∈ ps) (h2 : 2 ≤ es.length) :
    ∃ b, simplifyPhi used ps (Inst.phi t es) = some ([Inst.phi t (sortEntries es)], [], b) := by
  have hl : (sortEntries es).length = es.length := (sortEntries_perm es).length_eq
  simp only [simplifyPhi, simplifyEntries_phi hn hp]
  cases hs : sortEntries es with
  | nil => rw [hs] at hl; simp at hl; omega
  | cons e r =>
    cases r with
    | nil => rw [hs] at hl; simp at hl; omega
    | cons f r => exact ⟨_, rfl⟩

theorem simplifyAll_phiList {used : Nat → Bool} {ps : List Nat} {E : Nat → List (Nat × Arg)} :
    ∀ {ts vs : List Nat}, (∀ v ∈ vs, ((E v).map (·.1)).Nodup ∧ (∀ e ∈ E v, e.1 ∈ ps) ∧ 2 ≤ (E v).length) →
    ∃ b, simplifyAll used ps (phiList ts vs E) = some (phiList ts vs (fun v => sortEntries (E v)), [], b)
  | [], vs, _ => ⟨false, by simp [phiList, simplifyAll]⟩
  | t :: ts, [], _ => ⟨false, by simp [phiList, simplifyAll]⟩
  | t :: ts, v :: vs, h => by
    obtain ⟨h1, h2, h3⟩ := h v (by simp)
    obtain ⟨b, e⟩ := simplifyPhi_phi (used := used) (t := t) h1 h2 h3
    obtain ⟨b', e'⟩ := simplifyAll_phiList (used := used) (ts := ts) (vs := vs) (fun v hv => h v (by simp [hv]))
    refine ⟨b || b', ?_⟩
    simp only [phiList] at e'
    simp [phiList, simplifyAll, e, e']

theorem phiList_isPhi {ts vs : List Nat} {E : Nat → List (Nat × Arg)} :
    ∀ i ∈ phiList ts vs E, i.t = .phi := by
  intro i hi
  obtain ⟨k, hk⟩ := List.getElem?_of_mem hi
  simp only [phiList, List.getElem?_zipWith] at hk
  cases h1 : ts[k]? <;> cases h2 : vs[k]? <;> simp [h1, h2] at hk
  rw [← hk]
  rfl

theorem simplifyBlock_mid {used : Nat → Bool} {ps : List Nat} {E : Nat → List (Nat × Arg)} {ts vs : List Nat}
    {B : List Inst} (hB : ∀ i ∈ B, i.t ≠ .phi)
    (h : ∀ v ∈ vs, ((E v).map (·.1)).Nodup ∧ (∀ e ∈ E v, e.1 ∈ ps) ∧ 2 ≤ (E v).length) :
    ∃ b, simplifyBlock used ps (phiList ts vs E ++ B) =
      some (phiList ts vs (fun v => sortEntries (E v)) ++ B, b) := by
  obtain ⟨b, e⟩ := simplifyAll_phiList (used := used) (ts := ts) h
  have h1 : (phiList ts vs E ++ B).filter (fun i => i.t == .phi) = phiList ts vs E := by
    rw [List.filter_append, List.filter_eq_self.2 (fun i hi => by simp [phiList_isPhi i hi]),
      List.filter_eq_nil_iff.2 (fun i hi => by simpa using hB i hi), List.append_nil]
  have h2 : (phiList ts vs E ++ B).filter (fun i => i.t != .phi) = B := by
    rw [List.filter_append, List.filter_eq_nil_iff.2 (fun i hi => by simp [phiList_isPhi i hi]),
      List.filter_eq_self.2 (fun i hi => by simpa using hB i hi), List.nil_append]
  simp only [simplifyBlock, h1, h2, e, Option.bind_eq_bind, Option.bind_some, List.append_nil]
  exact ⟨_, rfl⟩

theorem simplifyBlocks_map {used : Nat → Bool} {g : Graph} {f : Nat → List Inst} :
    ∀ {bs : List (Nat × List Inst)},
    (∀ e ∈ bs, ∃ b, simplifyBlock used (g.parents e.1) e.2 = some (f e.1, b)) →
    ∃ b, simplifyBlocks used g bs = some (bs.map (fun e => (e.1, f e.1)), b)
  | [], _ => ⟨false, rfl⟩
  | (l, is) :: bs, h => by
    obtain ⟨b, e⟩ := h (l, is) (by simp)
    obtain ⟨b', e'⟩ := simplifyBlocks_map (bs := bs) (fun x hx => h x (by simp [hx]))
    simp only at e
    exact ⟨b || b', by simp [simplifyBlocks, e, e']⟩

theorem lookup_map_key {f : Nat → List Inst} : ∀ {bs : List (Nat × List Inst)} {x : Nat},
    (bs.map (fun e => (e.1, f e.1))).lookup x = (bs.lookup x).map (fun _ => f x)
  | [], x => rfl
  | (l, is) :: bs, x => by
    simp only [List.map_cons, List.lookup_cons]
    by_cases h : x = l
    · subst h; simp
    · have : (x == l) = false := by simpa using h
      simp only [this]
      exact lookup_map_key

/-! ## The original targets of the phis -/

theorem phiTgts_spec : ∀ {vs : List Nat} {rest : List Inst}, (∀ i ∈ rest, i.t ≠ .phi) →
    phiTgts (vs.map (fun v => Inst.phi v []) ++ rest) = some vs
  | [], [], _ => rfl
  | [], i :: is, h => by simp [phiTgts, h i (by simp)]
  | v :: vs, rest, h => by
    have := phiTgts_spec (vs := vs) h
    simp only [List.map_cons, List.cons_append, phiTgts]
    rw [show (Inst.phi v []).t = .phi from rfl]
    simp only [this]
    rfl

theorem mapM_some {α β : Type} {f : α → Option β} {g : α → β} : ∀ {xs : List α},
    (∀ x ∈ xs, f x = some (g x)) → xs.mapM f = some (xs.map g)
  | [], _ => rfl
  | x :: xs, h => by
    simp [List.mapM_cons, h x (by simp), mapM_some (xs := xs) (fun y hy => h y (by simp [hy]))]

theorem origTgts_spec {c0 c1 : Cfg} {vs : Nat → List Nat} (hp : Placed c0 c1 vs)
    (hn : (c0.bblocks.map (·.1)).Nodup) (h : ∀ x, ∀ i ∈ blockOf c0 x, i.t ≠ .phi) :
    ∃ origs, origTgts c1 = some origs ∧
      ∀ x, (Cfg.block c0 x).isSome → (origs.lookup x).getD [] = vs x := by
  refine ⟨c1.bblocks.map (fun e => (e.1, vs e.1)), ?_, ?_⟩
  · refine mapM_some ?_
    rintro ⟨l, is⟩ he
    have hb := (block_mem (by rw [hp.keys]; exact hn)).1 he
    rw [hp.block] at hb
    cases h0 : Cfg.block c0 l with
    | none => rw [h0] at hb; simp at hb
    | some is0 =>
      rw [h0] at hb
      simp only [Option.map_some, Option.some.injEq] at hb
      have h1 : ∀ i ∈ is0, i.t ≠ .phi := by
        have := h l
        simpa [blockOf, h0] using this
      simp only [← hb, phiTgts_spec h1, Option.bind_eq_bind, Option.bind_some]
  · intro x hx
    have h1 : (c1.bblocks.lookup x).isSome := by
      have := hp.block x
      simp only [Cfg.block] at this hx
      rw [this]
      simpa using hx
    have h2 : ∀ (bs : List (Nat × List Inst)), (bs.map (fun e => (e.1, vs e.1))).lookup x =
        (bs.lookup x).map (fun _ => vs x) := by
      intro bs
      induction bs with
      | nil => rfl
      | cons e bs ih =>
        obtain ⟨l, is⟩ := e
        simp only [List.map_cons, List.lookup_cons]
        by_cases h : x = l
        · subst h; simp
        · have : (x == l) = false := by simpa using h
          simp only [this]
          exact ih
    obtain ⟨is, h3⟩ := Option.isSome_iff_exists.1 h1
    simp [h2, h3]

/-! ## What the construction gives -/

/-- How the constructed program `c'` comes from `c`: block `x` has the phis for `vs x`; before it the variables
have the names `σ x`, and the names given in it start at `k x`. -/
structure Cert (c c' : Cfg) (N n' : Nat) (vs : Nat → List Nat) (σ : Nat → Nat → Nat) (k : Nat → Nat)
    (E : Nat → Nat → List (Nat × Arg)) : Prop where
  graph : c'.graph = c.graph
  entry : c'.entry = c.entry
  keys : c'.bblocks.map (·.1) = c.bblocks.map (·.1)
  block : ∀ x, Reach c.graph.Edge c.entry x → blockOf c' x =
    phiList (List.range' (k x) (vs x).length) (vs x) (E x) ++
      renAll (bump (σ x) (k x) (vs x)) (k x + (vs x).length) (blockOf c x)
  nodup : ∀ x, (vs x).Nodup
  closed : ∀ v a b, v ∈ allDsts c vs a → Reach c.graph.Edge c.entry b → InFrontier c.graph.Edge c.entry a b →
    v ∈ vs b
  sound : ∀ x, ∀ v ∈ vs x, (∃ a, v ∈ dsts (blockOf c a)) ∧ ∃ a, InFrontier c.graph.Edge c.entry a x
  start : σ c.entry = id
  idom : ∀ p x, Reach c.graph.Edge c.entry x → x ≠ c.entry → IsIdom c.graph.Edge c.entry p x →
    σ x = bump (σ p) (k p) (allDsts c vs p) ∧ k p + (allDsts c vs p).length ≤ k x
  lo : ∀ x, Reach c.graph.Edge c.entry x → N ≤ k x
  hi : ∀ x, Reach c.graph.Edge c.entry x → k x + (allDsts c vs x).length ≤ n'
  disj : ∀ x y, Reach c.graph.Edge c.entry x → Reach c.graph.Edge c.entry y → x ≠ y →
    k x + (allDsts c vs x).length ≤ k y ∨ k y + (allDsts c vs y).length ≤ k x
  once : ∀ x v, ((E x v).map (·.1)).Nodup
  sorted : ∀ x v, ((E x v).map (·.1)).Pairwise (fun a b : Nat => a ≤ b)
  mem : ∀ x v p a, (p, a) ∈ E x v ↔ c.graph.Edge p x ∧ a = .var (bump (σ p) (k p) (allDsts c vs p) v)

theorem sortEntries_sorted (es : List (Nat × Arg)) :
    ((sortEntries es).map (·.1)).Pairwise (fun a b : Nat => a ≤ b) := by
  have ins : ∀ (x : Nat × Arg) (es : List (Nat × Arg)),
      (insertEntry x es).map (·.1) = insertSorted x.1 (es.map (·.1)) := by
    intro x es
    induction es with
    | nil => rfl
    | cons y ys ih =>
      simp only [insertEntry, List.map_cons, insertSorted]
      split
      · rfl
      · simp [ih]
  have : (sortEntries es).map (·.1) = sortLabels (es.map (·.1)) := by
    induction es with
    | nil => rfl
    | cons x es ih =>
      simp only [sortEntries, List.foldr_cons] at ih ⊢
      rw [ins, ih]
      rfl
  rw [this]
  exact sortLabels_le

theorem pairwise_apart {T : List Visit} {f : Visit → Nat} (h : T.Pairwise (fun t t' => f t ≤ t'.k)) :
    ∀ {a b : Visit}, a ∈ T → b ∈ T → a ≠ b → f a ≤ b.k ∨ f b ≤ a.k := by
  induction T with
  | nil => intro a b ha; simp at ha
  | cons t T ih =>
    intro a b ha hb hne
    obtain ⟨h1, h2⟩ := List.pairwise_cons.1 h
    rcases List.mem_cons.1 ha with e1 | ha' <;> rcases List.mem_cons.1 hb with e2 | hb'
    · exact absurd (e1.trans e2.symm) hne
    · subst e1; exact .inl (h1 b hb')
    · subst e2; exact .inr (h1 a ha')
    · exact ih h2 ha' hb' hne

theorem visit_eq {T : List Visit} (hn : (T.map (·.lab)).Nodup) {a b : Visit} (ha : a ∈ T) (hb : b ∈ T)
    (h : a.lab = b.lab) : a = b := by
  induction T with
  | nil => simp at ha
  | cons t T ih =>
    simp only [List.map_cons, List.nodup_cons] at hn
    rcases List.mem_cons.1 ha with e1 | ha' <;> rcases List.mem_cons.1 hb with e2 | hb'
    · rw [e1, e2]
    · subst e1
      exact absurd (List.mem_map.2 ⟨b, hb', h.symm⟩) hn.1
    · subst e2
      exact absurd (List.mem_map.2 ⟨a, ha', h⟩) hn.1
    · exact ih hn.2 ha' hb'

theorem construct_cert {c : Cfg} {ops : List Op} (hg : Graph.run ops = some c.graph) (wf : WellFormed c)
    (hph : NoPhis c) (hall : ∀ l, (Cfg.block c l).isSome → Reach c.graph.Edge c.entry l)
    (hsrc : ∀ a b, c.graph.Edge a b → Reach c.graph.Edge c.entry a)
    (hent : ∀ p, ¬ c.graph.Edge p c.entry) {fuel N : Nat}
    (hf : c.bblocks.length + c.graph.labels.length + 3 ≤ fuel) :
    ∃ (c' : Cfg) (n' : Nat) (vs : Nat → List Nat) (σ : Nat → Nat → Nat) (k : Nat → Nat)
      (E : Nat → Nat → List (Nat × Arg)), construct fuel c N = some (c', n') ∧ Cert c c' N n' vs σ k E := by
  have w := ((C26_history ops).2 c.graph hg).wf
  obtain ⟨d, hd, t⟩ := calculateDom_tree ops c.graph hg c.entry fuel (by omega)
  obtain ⟨df, hdf, hmem⟩ := C61_frontiers ops c.graph hg c.entry fuel d (by omega) hd
    (fun p b h _ => hsrc p b h) hent
  have hdom : ∀ a b, dominates df a b = true ↔
      Reach c.graph.Edge c.entry b ∧ InFrontier c.graph.Edge c.entry a b := by
    intro a b
    rw [← hmem]
    simp only [dominates]
    cases df.lookup a with
    | none => simp
    | some s => simp
  have hnp : ∀ x, ∀ i ∈ blockOf c x, i.t ≠ .phi := by
    intro x i hi
    obtain ⟨j, hj⟩ := List.getElem?_of_mem hi
    exact hph x j i hj
  obtain ⟨c1, vs, e1, hp, v1, v2, v3⟩ := insertPhis_ok hdf wf.labels
    (fun a b h => block_of_reach wf ((hdom a b).1 h).1) (fuel := fuel) (by omega)
  obtain ⟨origs, e2, ho⟩ := origTgts_spec hp wf.labels hnp
  have hmid0 : MidT c vs c1 [] := by
    refine ⟨hp.graph, hp.entry, hp.keys, fun x => rfl, ?_⟩
    intro x
    rw [hp.block]
    cases hb : Cfg.block c x with
    | none => rfl
    | some is =>
      have : eOf c vs [] x = fun _ => [] := rfl
      simp [tsOf, bOf, this, phiList_empty, blockOf, hb]
  have hidx : d.postorder.idxOf c.entry < fuel := by
    have h1 := List.idxOf_lt_length_of_mem ((t.mem c.entry).2 .refl)
    have h2 := nodup_length_le t.nodup (ys := c.entry :: c.graph.labels)
      (fun x hx => mem_universe w ((t.mem x).1 hx))
    simp only [List.length_cons] at h2
    omega
  obtain ⟨st', c2, n', T, e3, -, hm, hpart⟩ := renameTree_ok (F := fun _ => []) hnp w wf.edgeBlock
    (fun l h => block_of_reach wf h) t ho fuel N Reach.refl hidx (st := []) (fun v => .inl rfl) hmid0
    (by simp)
  simp only [List.nil_append] at hm
  have hT : ∀ y, y ∈ T.map (·.lab) ↔ Reach c.graph.Edge c.entry y := by
    intro y
    rw [hpart.labs]
    exact ⟨fun h => h.1, fun h => ⟨h, c.entry, by simp, dom_entry⟩⟩
  -- the visit of a block
  let tv : Nat → Visit := fun x => (T.find? (fun t => t.lab == x)).getD ⟨x, id, 0⟩
  have htv : ∀ {x : Nat}, Reach c.graph.Edge c.entry x →
      T.find? (fun t => t.lab == x) = some (tv x) ∧ tv x ∈ T ∧ (tv x).lab = x := by
    intro x hx
    obtain ⟨s, hs, e⟩ := List.mem_map.1 ((hT x).2 hx)
    cases hfd : T.find? (fun t => t.lab == x) with
    | none =>
      rw [List.find?_eq_none] at hfd
      exact absurd (by simpa using e) (hfd s hs)
    | some t' =>
      have h1 := List.mem_of_find?_eq_some hfd
      have h2 := List.find?_some hfd
      have h3 : tv x = t' := by simp only [tv, hfd, Option.getD_some]
      rw [h3]
      exact ⟨rfl, h1, by simpa using h2⟩
  have htv' : ∀ {s : Visit}, s ∈ T → s = tv s.lab := by
    intro s hs
    have hx := (hT s.lab).1 (List.mem_map.2 ⟨s, hs, rfl⟩)
    exact visit_eq hpart.nodup hs (htv hx).2.1 (htv hx).2.2.symm
  have hout : ∀ {x : Nat}, Reach c.graph.Edge c.entry x →
      out c vs (tv x) = bump (tv x).σ (tv x).k (allDsts c vs x) := by
    intro x hx
    rw [out, (htv hx).2.2]
  have hE : ∀ x v p a, (p, a) ∈ eOf c vs T x v ↔ c.graph.Edge p x ∧
      a = .var (bump (tv p).σ (tv p).k (allDsts c vs p) v) := by
    intro x v p a
    simp only [eOf, List.mem_map, List.mem_filter, List.contains_iff_mem, Prod.mk.injEq]
    constructor
    · rintro ⟨s, ⟨hs, hx⟩, rfl, rfl⟩
      refine ⟨hx, ?_⟩
      have := htv' hs
      rw [← this]
      rfl
    · rintro ⟨he, rfl⟩
      have h := htv (hsrc p x he)
      exact ⟨tv p, ⟨h.2.1, by rw [h.2.2]; exact he⟩, h.2.2, by rw [out, h.2.2]⟩
  have hEn : ∀ x v, ((eOf c vs T x v).map (·.1)).Nodup := by
    intro x v
    simp only [eOf, List.map_map]
    exact List.Nodup.sublist (List.Sublist.map _ List.filter_sublist) hpart.nodup
  have hE2 : ∀ x, ∀ v ∈ vs x, 2 ≤ (eOf c vs T x v).length := by
    intro x v hv
    obtain ⟨a, ha⟩ := (v2 x v hv).2
    obtain ⟨hx, hfr⟩ := (hdom a x).1 ha
    have hne : x ≠ c.entry := by
      rintro rfl
      obtain ⟨⟨p, h, -⟩, -⟩ := hfr
      exact hent p h
    obtain ⟨p, q, h1, h2, h3⟩ := two_preds hx hne (fun p h => hsrc p x h) hfr
    have m1 := (hE x v p _).2 ⟨h1, rfl⟩
    have m2 := (hE x v q _).2 ⟨h2, rfl⟩
    have : [p, q].length ≤ ((eOf c vs T x v).map (·.1)).length := by
      refine nodup_length_le (by simp [h3]) ?_
      intro z hz
      simp only [List.mem_cons, List.not_mem_nil, or_false] at hz
      rcases hz with rfl | rfl
      · exact List.mem_map.2 ⟨_, m1, rfl⟩
      · exact List.mem_map.2 ⟨_, m2, rfl⟩
    simpa using this
  have hkeys2 : (c2.bblocks.map (·.1)).Nodup := by rw [hm.keys]; exact wf.labels
  have hblk : ∀ e ∈ c2.bblocks, e.2 = phiList (tsOf vs T e.1) (vs e.1) (eOf c vs T e.1) ++ bOf c vs T e.1 := by
    rintro ⟨l, is⟩ he
    have hb := (block_mem hkeys2).1 he
    rw [hm.block] at hb
    cases h0 : Cfg.block c l with
    | none => rw [h0] at hb; simp at hb
    | some is0 =>
      rw [h0] at hb
      simpa using hb.symm
  have hprune : pruneAll c2.bblocks = some ([], c2.bblocks) := by
    refine pruneAll_none ?_
    intro e he i hi hip
    rw [hblk e he] at hi
    rcases List.mem_append.1 hi with hi | hi
    · obtain ⟨j, hj⟩ := List.getElem?_of_mem hi
      simp only [phiList, List.getElem?_zipWith] at hj
      cases h1 : (tsOf vs T e.1)[j]? <;> cases h2 : (vs e.1)[j]? <;> simp [h1, h2] at hj
      rw [← hj]
      simpa [Inst.phi] using hE2 e.1 _ (List.mem_of_getElem? h2)
    · exact absurd hip (bOf_noPhi hnp T e.1 i hi)
  obtain ⟨f0, hf0⟩ : ∃ f : Nat → List Inst, f = fun x =>
      phiList (tsOf vs T x) (vs x) (fun v => sortEntries (eOf c vs T x v)) ++ bOf c vs T x := ⟨_, rfl⟩
  obtain ⟨b, hsimp⟩ := simplifyBlocks_map (used := isUsed c2) (g := c2.graph) (f := f0)
    (bs := c2.bblocks) (by
      intro e he
      rw [hblk e he, hf0]
      refine simplifyBlock_mid (bOf_noPhi hnp T e.1) ?_
      intro v hv
      refine ⟨hEn e.1 v, ?_, hE2 e.1 v hv⟩
      rintro ⟨p, a⟩ hpa
      have := ((hE e.1 v p a).1 hpa).1
      rw [hm.graph]
      exact (w.sym p e.1).1 this)
  refine ⟨{ c2 with bblocks := c2.bblocks.map (fun e => (e.1, f0 e.1)) },
    n', vs, fun x => (tv x).σ, fun x => (tv x).k, fun x v => sortEntries (eOf c vs T x v), ?_, ?_⟩
  · have e3' : renameTree origs d fuel ([], c1, N) c1.entry = some (st', c2, n') := by rw [hp.entry]; exact e3
    have hu : isUsed { c2 with bblocks := c2.bblocks } = isUsed c2 := rfl
    simp only [construct, hd, e1, Option.bind_eq_bind, Option.bind_some, renameTargets, e2, e3', hprune,
      List.isEmpty_nil, if_true, simplifyPhis, hu, hsimp]
  have hin : ∀ (x : Nat) (a : List (Nat × Arg)), ∀ e, e ∈ sortEntries a ↔ e ∈ a :=
    fun x a e => (sortEntries_perm a).mem_iff
  refine ⟨hm.graph, hm.entry, ?_, ?_, v1, ?_, ?_, ?_, ?_, ?_, ?_, ?_, ?_, ?_, ?_⟩
  · rw [← hm.keys]
    simp only [List.map_map]
    rfl
  · intro x hx
    have h1 : Cfg.block c2 x = (Cfg.block c x).map _ := hm.block x
    obtain ⟨is, hb⟩ := Option.isSome_iff_exists.1 (block_of_reach wf hx)
    rw [hb] at h1
    simp only [blockOf, Cfg.block] at h1 ⊢
    rw [lookup_map_key, h1]
    simp only [Option.map_some, Option.getD_some, hf0, tsOf, bOf, (htv hx).1]
    rfl
  · intro v a b hv hb hfr
    refine v3 v a b ?_ ((hdom a b).2 ⟨hb, hfr⟩)
    rcases List.mem_append.1 hv with h | h
    · exact .inr h
    · exact .inl h
  · intro x v hv
    obtain ⟨h1, a, h2⟩ := v2 x v hv
    exact ⟨h1, a, ((hdom a x).1 h2).2⟩
  · have h := htv (x := c.entry) .refl
    rcases hpart.parent _ h.2.1 with ⟨-, h2⟩ | ⟨p, hp1, hi, -⟩
    · rw [h2]
      funext v
      rfl
    · rw [h.2.2] at hi
      exact absurd (dom_of_entry hi.1.1) hi.1.2
  · intro p x hx hne hi
    have h := htv hx
    rcases hpart.parent _ h.2.1 with ⟨h1, -⟩ | ⟨s, hs, hi', h3, h4⟩
    · rw [h.2.2] at h1
      simp at h1
      exact absurd h1 hne
    · rw [h.2.2] at hi'
      have hps := idom_unique hx hi hi'
      have h5 := htv' hs
      rw [← hps] at h5
      subst h5
      have hpr := dom_reach hx hi.1.1
      refine ⟨by rw [h3, hout hpr], ?_⟩
      rw [(htv hpr).2.2] at h4
      exact h4
  · intro x hx
    exact hpart.lo _ (htv hx).2.1
  · intro x hx
    have := hpart.hi _ (htv hx).2.1
    rw [(htv hx).2.2] at this
    exact this
  · intro x y hx hy hne
    have h1 := htv hx
    have h2 := htv hy
    have := pairwise_apart hpart.seq h1.2.1 h2.2.1 (fun e => hne (by rw [← h1.2.2, ← h2.2.2, e]))
    rw [h1.2.2, h2.2.2] at this
    exact this
  · intro x v
    exact ((sortEntries_perm _).map _).nodup_iff.2 (hEn x v)
  · intro x v
    exact sortEntries_sorted _
  · intro x v p a
    rw [(sortEntries_perm _).mem_iff]
    exact hE x v p a

end Verif.Ssa
