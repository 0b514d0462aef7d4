import Verif.Opt.Dvn
/-!
# Value numbering over a whole program
-/

namespace Verif.Opt

open Verif.Il Verif.Graph Verif.Dom

variable {V W : Type} {I : Interp V W} {c0 : Cfg}

/-! ## Phis -/

theorem dvnInst_phi {K : Evaluator} (s : State) {i : Inst} (h : i.t = .phi) :
    dvnInst K s i = some (s, { i with args := i.args.map (s.canonArg K) }) := by
  simp [dvnInst, rewriteInst, consteval, numberInst, h]

theorem phi_canon {K : Evaluator} (hK : EvalSound K I) {s : State}
    (ht : ∀ t a, s.tgts.lookup t = some a → EntryOk I c0 t a) {i i' : Inst} (r : PhiRel I c0 i i') :
    PhiRel I c0 i { i' with args := i'.args.map (s.canonArg K) } where
  phi := r.phi
  tgts := r.tgts
  len := by simpa using r.len
  nodup := r.nodup
  labels := r.labels
  entry := by
    intro p a' h
    simp only [zip_map_right, List.mem_map, Prod.mk.injEq, Prod.exists] at h
    obtain ⟨p', b, hb, rfl, rfl⟩ := h
    obtain ⟨a, h1, h2, h3⟩ := r.entry _ b hb
    obtain ⟨h4, h5⟩ := canon_ok hK ht h2
    exact ⟨a, h1, h4, fun e he => by rw [h5 e he, h3 e he]⟩

theorem insertEntry_perm (x : Nat × Arg) (es : List (Nat × Arg)) : (insertEntry x es).Perm (x :: es) := by
  induction es with
  | nil => exact List.Perm.refl _
  | cons y ys ih =>
    rw [insertEntry]
    split
    · exact List.Perm.refl _
    · exact (ih.cons y).trans (List.Perm.swap x y ys)

theorem sortEntries_perm (es : List (Nat × Arg)) : (sortEntries es).Perm es := by
  induction es with
  | nil => exact List.Perm.refl _
  | cons x es ih => exact (insertEntry_perm x _).trans (ih.cons x)

theorem zip_unzip' (es : List (Nat × Arg)) : (es.map (·.1)).zip (es.map (·.2)) = es := by
  induction es with
  | nil => rfl
  | cons x es ih => simp [ih]

theorem map_fst_zip' {xs : List Nat} {ys : List Arg} (h : xs.length = ys.length) :
    (xs.zip ys).map (·.1) = xs := by
  induction xs generalizing ys with
  | nil => rfl
  | cons x xs ih =>
    cases ys with
    | nil => simp at h
    | cons y ys => simp [ih (by simpa using h)]

theorem phi_canonPhi {K : Evaluator} (hK : EvalSound K I) {s : State}
    (ht : ∀ t a, s.tgts.lookup t = some a → EntryOk I c0 t a) {pred : Nat} {i i' : Inst}
    (r : PhiRel I c0 i i') : PhiRel I c0 i (canonPhi K s pred i') := by
  have hl : ((i'.labels.zip i'.args).map
      (fun e => if e.1 = pred then (e.1, s.canonArg K e.2) else e)).map (·.1) = i'.labels := by
    rw [List.map_map]
    refine Eq.trans (List.map_congr_left ?_) (map_fst_zip' r.len)
    intro e _
    simp only [Function.comp]
    split <;> rfl
  have hp : ((sortEntries ((i'.labels.zip i'.args).map
      (fun e => if e.1 = pred then (e.1, s.canonArg K e.2) else e))).map (·.1)).Perm i'.labels := by
    exact ((sortEntries_perm _).map _).trans (by rw [hl])
  refine ⟨r.phi, r.tgts, by simp [canonPhi], hp.nodup_iff.2 r.nodup, ?_, ?_⟩
  · intro p
    rw [← r.labels p]
    exact hp.mem_iff
  · intro p a' h
    simp only [canonPhi, zip_unzip'] at h
    rw [(sortEntries_perm _).mem_iff, List.mem_map] at h
    obtain ⟨⟨q, b⟩, hb, he⟩ := h
    obtain ⟨a, h1, h2, h3⟩ := r.entry q b hb
    obtain ⟨h4, h5⟩ := canon_ok hK ht h2
    simp only at he
    split at he
    · obtain ⟨rfl, rfl⟩ := Prod.mk.inj he
      exact ⟨a, h1, h4, fun e he => by rw [h5 e he, h3 e he]⟩
    · obtain ⟨rfl, rfl⟩ := Prod.mk.inj he
      exact ⟨a, h1, h2, h3⟩

theorem canonPhis_ok {K : Evaluator} (hK : EvalSound K I) {s : State}
    (ht : ∀ t a, s.tgts.lookup t = some a → EntryOk I c0 t a) {pred : Nat} :
    ∀ (is : List Inst), (canonPhis K s pred is).length = is.length ∧
      ∀ (l k j : Nat) (i i' : Inst), (∀ i0, is[j]? = some i0 → PointRel I c0 l k i i0) →
        (canonPhis K s pred is)[j]? = some i' → PointRel I c0 l k i i' := by
  intro is
  induction is with
  | nil => exact ⟨rfl, by simp [canonPhis]⟩
  | cons x xs ih =>
    rw [canonPhis]
    split
    · exact ⟨rfl, fun l k j i i' h1 h2 => h1 i' h2⟩
    · rename_i hx
      have hx : x.t = .phi := Decidable.not_not.1 hx
      refine ⟨by simp [ih.1], ?_⟩
      intro l k j i i' h1 h2
      cases j with
      | zero =>
        simp only [List.getElem?_cons_zero, Option.some.injEq] at h1 h2
        subst h2
        rcases h1 x rfl with ⟨h, r⟩ | ⟨h, r⟩
        · exact Or.inl ⟨h, phi_canonPhi hK ht r⟩
        · exact absurd hx r.notPhi
      | succ j =>
        simp only [List.getElem?_cons_succ] at h1 h2
        exact ih.2 l k j i i' h1 h2

/-! ## Blocks -/

theorem dvnBlock_ok [Nonempty W] {K : Evaluator} (hK : EvalSound K I) (hs : ReadsAreSilent I)
    (ssa : StrictSSA c0) {c : Cfg} (rel : CfgRel I c0 c) {l : Nat} :
    ∀ (is : List Inst) (k : Nat) (s : State) (ms : List Site), (blockOf c l).drop k = is →
      k ≤ (blockOf c0 l).length → Trail c0 ms l k → StateOk I c0 s l k →
      ∃ s' is', dvnBlock K s is = some (s', is') ∧ is'.length = is.length ∧
        StateOk I c0 s' l (blockOf c0 l).length ∧
        (∃ ms', Trail c0 ms' l (blockOf c0 l).length) ∧
        ∀ j i i', instAt c0 l (k + j) = some i → is'[j]? = some i' → PointRel I c0 l (k + j) i i' := by
  intro is
  induction is with
  | nil =>
    intro k s ms hd hk tr h
    have : k = (blockOf c0 l).length := by
      have := congrArg List.length hd
      simp [rel.len] at this
      omega
    subst this
    exact ⟨s, [], rfl, rfl, h, ⟨ms, tr⟩, by simp⟩
  | cons x xs ih =>
    intro k s ms hd hk tr h
    have hx : instAt c l k = some x := by
      have : ((blockOf c l).drop k)[0]? = some x := by rw [hd]; rfl
      simpa [instAt] using this
    have hlt : k < (blockOf c0 l).length := by rw [← rel.len l]; exact lt_of_instAt hx
    have hi : instAt c0 l k = some (blockOf c0 l)[k] := List.getElem?_eq_getElem hlt
    generalize (blockOf c0 l)[k] = i at hi
    have hd' : (blockOf c l).drop (k + 1) = xs := by
      have : (blockOf c l).drop (k + 1) = ((blockOf c l).drop k).drop 1 := by simp
      rw [this, hd]
      rfl
    have hone : ∃ s1 x1, dvnInst K s x = some (s1, x1) ∧ PointRel I c0 l k i x1 ∧ StateOk I c0 s1 l (k + 1) := by
      rcases rel.point l k i x hi hx with ⟨hp, r⟩ | ⟨hp, r⟩
      · exact ⟨s, _, dvnInst_phi s r.phi, Or.inl ⟨hp, phi_canon hK h.tgts r⟩, h.mono (fun d hd => passes_next hd)⟩
      · obtain ⟨s1, x1, e1, e2, e3⟩ := dvnInst_ok hK hs ssa tr h hi hp r
        exact ⟨s1, x1, e1, Or.inr ⟨hp, e2⟩, e3⟩
    obtain ⟨s1, x1, e1, e2, e3⟩ := hone
    obtain ⟨s2, is2, f1, f2, f3, f4, f5⟩ := ih (k + 1) s1 _ hd' hlt (.inst tr hlt) e3
    refine ⟨s2, x1 :: is2, ?_, by simp [f2], f3, f4, ?_⟩
    · simp only [dvnBlock, e1, f1, Option.bind_eq_bind, Option.bind_some]
    · intro j i0 i' g1 g2
      cases j with
      | zero =>
        rw [Nat.add_zero, hi] at g1
        obtain rfl := Option.some.inj g1
        obtain rfl := Option.some.inj g2
        exact e2
      | succ j =>
        rw [List.getElem?_cons_succ] at g2
        have := f5 j i0 i' (by rw [show k + 1 + j = k + (j + 1) by omega]; exact g1) g2
        rwa [show k + 1 + j = k + (j + 1) by omega] at this

theorem lookup_setAt {m : List (Nat × List Inst)} {l x : Nat} {is : List Inst} :
    (m.map (fun e => if e.1 = l then (e.1, is) else e)).lookup x =
      if x = l then (m.lookup x).map (fun _ => is) else m.lookup x := by
  induction m with
  | nil => simp
  | cons e m ih =>
    obtain ⟨k, v⟩ := e
    simp only [List.map_cons]
    by_cases hk : k = l
    · subst hk
      simp only [if_true, List.lookup_cons]
      by_cases hx : x = k
      · subst hx; simp
      · rw [show (x == k) = false by simpa using hx]
        simpa [hx] using ih
    · simp only [hk, if_false, List.lookup_cons]
      by_cases hx : x = k
      · subst hx; simp [hk]
      · rw [show (x == k) = false by simpa using hx]
        exact ih

theorem block_setBlock {c : Cfg} {l x : Nat} {is : List Inst} :
    Cfg.block (setBlock c l is) x = if x = l then (Cfg.block c x).map (fun _ => is) else Cfg.block c x :=
  lookup_setAt

theorem blockOf_setBlock_self {c : Cfg} {l : Nat} {is is0 : List Inst} (h : Cfg.block c l = some is0) :
    blockOf (setBlock c l is) l = is := by
  simp [blockOf, block_setBlock, h]

theorem blockOf_setBlock_ne {c : Cfg} {l x : Nat} {is : List Inst} (h : x ≠ l) :
    blockOf (setBlock c l is) x = blockOf c x := by
  simp [blockOf, block_setBlock, h]

theorem setBlock_rel {c : Cfg} (rel : CfgRel I c0 c) {l : Nat} {is is' : List Inst}
    (hb : Cfg.block c l = some is) (hl : is'.length = is.length)
    (hp : ∀ k i i', instAt c0 l k = some i → is'[k]? = some i' → PointRel I c0 l k i i') :
    CfgRel I c0 (setBlock c l is') where
  graph := rel.graph
  entry := rel.entry
  labels := by
    rw [← rel.labels]
    simp only [setBlock, List.map_map]
    refine List.map_congr_left ?_
    intro e _
    simp only [Function.comp]
    split <;> rfl
  len := by
    intro x
    by_cases hx : x = l
    · subst hx
      rw [blockOf_setBlock_self hb, hl, ← rel.len x]
      simp [blockOf, hb]
    · rw [blockOf_setBlock_ne hx, rel.len x]
  point := by
    intro x k i i' h1 h2
    by_cases hx : x = l
    · subst hx
      rw [instAt, blockOf_setBlock_self hb] at h2
      exact hp k i i' h1 h2
    · rw [instAt, blockOf_setBlock_ne hx] at h2
      exact rel.point x k i i' h1 h2

theorem block_isSome {c : Cfg} (rel : CfgRel I c0 c) {l : Nat} (h : (Cfg.block c0 l).isSome) :
    ∃ is, Cfg.block c l = some is := by
  have key : ∀ m m' : List (Nat × List Inst), m.map (·.1) = m'.map (·.1) → (m.lookup l).isSome →
      (m'.lookup l).isSome := by
    intro m
    induction m with
    | nil => intro m' _ h; cases h
    | cons e m ih =>
      intro m' he h
      cases m' with
      | nil => cases he
      | cons e' m' =>
        obtain ⟨k, v⟩ := e
        obtain ⟨k', v'⟩ := e'
        simp only [List.map_cons, List.cons.injEq] at he
        obtain ⟨rfl, he⟩ := he
        rw [List.lookup_cons] at h ⊢
        cases hk : l == k with
        | true => rfl
        | false =>
          rw [hk] at h
          exact ih m' he h
  exact Option.isSome_iff_exists.1 (key _ _ rel.labels.symm h)

theorem canonChildren_ok {K : Evaluator} (hK : EvalSound K I) {s : State}
    (ht : ∀ t a, s.tgts.lookup t = some a → EntryOk I c0 t a) {pred : Nat} :
    ∀ (ns : List Nat) (c : Cfg), CfgRel I c0 c → (∀ n ∈ ns, (Cfg.block c0 n).isSome) →
      ∃ c', canonChildren K s pred ns c = some c' ∧ CfgRel I c0 c' := by
  intro ns
  induction ns with
  | nil => exact fun c rel _ => ⟨c, rfl, rel⟩
  | cons n ns ih =>
    intro c rel hn
    obtain ⟨is, hb⟩ := block_isSome rel (hn n List.mem_cons_self)
    obtain ⟨h1, h2⟩ := canonPhis_ok hK ht (pred := pred) is
    have rel' : CfgRel I c0 (setBlock c n (canonPhis K s pred is)) := by
      refine setBlock_rel rel hb h1 ?_
      intro k i i' g1 g2
      refine h2 n k k i i' ?_ g2
      intro i0 g3
      refine rel.point n k i i0 g1 ?_
      simpa [instAt, blockOf, hb] using g3
    obtain ⟨c', e, r⟩ := ih _ rel' (fun m hm => hn m (List.mem_cons_of_mem _ hm))
    exact ⟨c', by simp only [canonChildren, hb, Option.bind_eq_bind, Option.bind_some, e], r⟩

/-! ## The dominator tree -/

/-- A walk through the program is a walk through the graph; every block it has left it has executed. -/
theorem trail_walk {c : Cfg} {ms : List Site} {l k : Nat} (tr : Trail c ms l k) :
    ∃ L, Walk c.graph.Edge c.entry L l ∧
      ∀ x ∈ L, x ≠ l → ∃ xs ms', ms = xs ++ ms' ∧ Trail c ms' x (blockOf c x).length := by
  induction tr with
  | start => exact ⟨_, .start, by simp⟩
  | @inst ms l k tr hlt ih =>
    obtain ⟨L, h1, h2⟩ := ih
    refine ⟨L, h1, ?_⟩
    intro x hx hne
    obtain ⟨xs, ms', e, t⟩ := h2 x hx hne
    exact ⟨.inst l k :: xs, ms', by rw [e]; rfl, t⟩
  | @jump ms l s tr he ih =>
    obtain ⟨L, h1, h2⟩ := ih
    refine ⟨L ++ [s], .step h1 he, ?_⟩
    intro x hx hne
    rcases List.mem_append.1 hx with hx | hx
    · by_cases hxl : x = l
      · subst hxl
        exact ⟨[.phis s], ms, rfl, tr⟩
      · obtain ⟨xs, ms', e, t⟩ := h2 x hx hxl
        exact ⟨.phis s :: xs, ms', by rw [e]; rfl, t⟩
    · exact absurd (List.mem_singleton.1 hx) hne

/-- What is passed by the end of a block is passed by the start of every block it strictly dominates. -/
theorem passes_dom {p n : Nat} (h : Dominates c0.graph.Edge c0.entry p n) (hne : p ≠ n) (d : Site)
    (hd : Passes c0 d p (blockOf c0 p).length) : Passes c0 d n 0 := by
  intro ms tr
  obtain ⟨L, h1, h2⟩ := trail_walk tr
  obtain ⟨xs, ms', e, t⟩ := h2 p (h L h1) hne
  rw [e]
  exact List.mem_append_right _ (hd ms' t)

theorem trail_to_end {c : Cfg} {ms : List Site} {l : Nat} (tr : Trail c ms l 0) :
    ∀ k, k ≤ (blockOf c l).length → ∃ ms', Trail c ms' l k := by
  intro k
  induction k with
  | zero => exact fun _ => ⟨ms, tr⟩
  | succ k ih =>
    intro hk
    obtain ⟨ms', t⟩ := ih (by omega)
    exact ⟨_, .inst t hk⟩

/-- Every node reachable in the graph is reached by a walk through the program. -/
theorem trail_of_reach {c : Cfg} {l : Nat} (h : Reach c.graph.Edge c.entry l) : ∃ ms, Trail c ms l 0 := by
  induction h with
  | refl => exact ⟨_, .start⟩
  | step _ he ih =>
    obtain ⟨ms, t⟩ := ih
    obtain ⟨ms', t'⟩ := trail_to_end t _ (Nat.le_refl _)
    exact ⟨_, .jump t' he⟩

theorem mem_universe {c : Cfg} (w : WF c.graph) {l : Nat} (h : Reach c.graph.Edge c.entry l) :
    l ∈ c.entry :: c.graph.labels := by
  cases h with
  | refl => exact List.mem_cons_self
  | step _ he => exact List.mem_cons_of_mem _ (w.child_label he)

theorem block_of_reach {c : Cfg} (wf : WellFormed c) {l : Nat} (h : Reach c.graph.Edge c.entry l) :
    (Cfg.block c l).isSome := by
  cases h with
  | refl => exact wf.entryBlock
  | step _ he => exact wf.edgeBlock _ _ he

theorem inner_ok [Nonempty W] {K : Evaluator} (hK : EvalSound K I) (hs : ReadsAreSilent I)
    (wf : WellFormed c0) (ssa : StrictSSA c0) (w : WF c0.graph) {d : Dom}
    (hd : ∀ p n, n ∈ d.immediatelyDominatedBy p → Reach c0.graph.Edge c0.entry n ∧
      IsIdom c0.graph.Edge c0.entry p n) :
    ∀ (fuel : Nat) (anc : List Nat) (s : State) (c : Cfg) (l : Nat), anc.Nodup →
      (∀ x ∈ anc, Reach c0.graph.Edge c0.entry x ∧ SDominates c0.graph.Edge c0.entry x l) →
      Reach c0.graph.Edge c0.entry l → (c0.entry :: c0.graph.labels).length ≤ fuel + anc.length →
      CfgRel I c0 c → StateOk I c0 s l 0 →
      ∃ c', inner K d fuel s c l = some c' ∧ CfgRel I c0 c' := by
  intro fuel
  induction fuel with
  | zero =>
    intro anc s c l hn ha hl hf
    exfalso
    have hn' : (l :: anc).Nodup := List.nodup_cons.2 ⟨fun h => (ha l h).2.2 rfl, hn⟩
    have hsub : l :: anc ⊆ c0.entry :: c0.graph.labels := by
      intro x hx
      rcases List.mem_cons.1 hx with rfl | hx
      · exact mem_universe w hl
      · exact mem_universe w (ha x hx).1
    have := hn'.length_le_of_subset hsub
    simp only [List.length_cons] at this hf
    omega
  | succ fuel ih =>
    intro anc s c l hn ha hl hf rel h
    have hn' : (l :: anc).Nodup := List.nodup_cons.2 ⟨fun h => (ha l h).2.2 rfl, hn⟩
    obtain ⟨is, hb⟩ := block_isSome rel (block_of_reach wf hl)
    obtain ⟨ms, tr⟩ := trail_of_reach hl
    obtain ⟨s', is', e1, e2, e3, -, e5⟩ := dvnBlock_ok hK hs ssa rel is 0 s ms
      (by simp [blockOf, hb]) (Nat.zero_le _) tr h
    have rel' : CfgRel I c0 (setBlock c l is') := by
      refine setBlock_rel rel hb e2 ?_
      intro k i i' g1 g2
      simpa using e5 k i i' (by simpa using g1) g2
    obtain ⟨c', e6, rel''⟩ := canonChildren_ok hK e3.tgts (pred := l) (c.graph.childrenSorted l)
      (setBlock c l is') rel' (by
        intro n hn
        refine wf.edgeBlock l n ?_
        rw [← rel.graph]
        exact mem_sortLabels.1 hn)
    have hall : ∀ (ns : List Nat) (c1 : Cfg), CfgRel I c0 c1 → (∀ n ∈ ns, n ∈ d.immediatelyDominatedBy l) →
        ∃ c2, ns.foldlM (fun c n => inner K d fuel s' c n) c1 = some c2 ∧ CfgRel I c0 c2 := by
      intro ns
      induction ns with
      | nil => exact fun c1 r _ => ⟨c1, rfl, r⟩
      | cons n ns ihn =>
        intro c1 r hns
        obtain ⟨hr, hid⟩ := hd l n (hns n List.mem_cons_self)
        obtain ⟨c2, f1, f2⟩ := ih (l :: anc) s' c1 n hn' (by
            intro x hx
            rcases List.mem_cons.1 hx with rfl | hx
            · exact ⟨hl, hid.1⟩
            · obtain ⟨g1, g2⟩ := ha x hx
              refine ⟨g1, dom_trans g2.1 hid.1.1, ?_⟩
              rintro rfl
              exact g2.2 (dom_antisymm hl g2.1 hid.1.1)) hr
          (by simp only [List.length_cons] at hf ⊢; omega) r
          (e3.mono (fun d hd' => passes_dom hid.1.1 hid.1.2 d hd'))
        obtain ⟨c3, f3, f4⟩ := ihn c2 f2 (fun m hm => hns m (List.mem_cons_of_mem _ hm))
        exact ⟨c3, by simp only [List.foldlM_cons, f1, Option.bind_eq_bind, Option.bind_some, f3], f4⟩
    obtain ⟨c2, g1, g2⟩ := hall (d.immediatelyDominatedBy l) c' rel'' (fun _ h => h)
    refine ⟨c2, ?_, g2⟩
    rw [inner]
    simp only [hb, e1, e6, g1, Option.bind_eq_bind, Option.bind_some]

/-! ## Same runs -/

theorem rel_refl (wf : WellFormed c0) (ssa : StrictSSA c0)
    (hpure : ∀ l k i, instAt c0 l k = some i → i.t = .bin ∨ i.t = .un → Timeless I (opcode i)) :
    CfgRel I c0 c0 where
  graph := rfl
  entry := rfl
  labels := rfl
  len := fun _ => rfl
  point := by
    intro l k i i' h1 h2
    rw [h1] at h2
    obtain rfl := Option.some.inj h2
    by_cases hp : i.t = .phi
    · refine Or.inl ⟨hp, hp, rfl, ?_, wf.phiOnce l k i h1 hp, fun _ => Iff.rfl, ?_⟩
      · have := wf.shape l k i h1
        simp only [Shape, hp] at this
        exact this.2
      · intro p a h
        exact ⟨a, h, ssa.availPhi l k i h1 hp p a h, fun _ _ => rfl⟩
    · refine Or.inr ⟨hp, hp, wf.shape l k i h1, rfl, ssa.avail l k i h1 hp, fun _ _ _ => rfl, ?_,
        hpure l k i h1, fun h => ⟨h, rfl, fun _ _ _ _ _ => rfl⟩, id⟩
      intro l' k' e hpp he
      exact he l k i h1 hpp

theorem execAll_rel {c : Cfg} (ssa : StrictSSA c0) (rel : CfgRel I c0 c) {l : Nat} :
    ∀ (is is' : List Inst) (k : Nat) (ms : List Site) (s : (Nat → V) × W), (blockOf c0 l).drop k = is →
      (blockOf c l).drop k = is' → Trail c0 ms l k → Sat I c0 s.1 l k →
      execAll I is' s = execAll I is s := by
  intro is
  induction is with
  | nil =>
    intro is' k ms s h1 h2 tr hs
    have : is'.length = 0 := by
      have g1 := congrArg List.length h1
      have g2 := congrArg List.length h2
      simp [rel.len] at g1 g2
      omega
    rw [List.length_eq_zero_iff.1 this]
  | cons i is ih =>
    intro is' k ms s h1 h2 tr hs
    have hi : instAt c0 l k = some i := by
      have : ((blockOf c0 l).drop k)[0]? = some i := by rw [h1]; rfl
      simpa [instAt] using this
    have hlt := lt_of_instAt hi
    have hlt' : k < (blockOf c l).length := by rw [rel.len]; exact hlt
    have hi' : instAt c l k = some (blockOf c l)[k] := List.getElem?_eq_getElem hlt'
    rw [List.drop_eq_getElem_cons hlt'] at h2
    generalize (blockOf c l)[k] = i' at h2 hi'
    subst h2
    have hd : (blockOf c0 l).drop (k + 1) = is := by
      have : (blockOf c0 l).drop (k + 1) = ((blockOf c0 l).drop k).drop 1 := by simp
      rw [this, h1]
      rfl
    have he : exec I i' s = exec I i s := by
      rcases rel.point l k i i' hi hi' with ⟨hp, r⟩ | ⟨hp, r⟩
      · rw [exec_phi I s hp, exec_phi I s r.phi]
      · exact r.exec s.1 s.2 hs
    show execAll I _ (exec I i' s) = execAll I is (exec I i s)
    rw [he]
    exact ih _ (k + 1) _ _ hd rfl (.inst tr hlt) (sat_inst ssa hi tr hs)

theorem next_rel {c : Cfg} (rel : CfgRel I c0 c) {l : Nat} {e : Nat → V}
    (hs : Sat I c0 e l (blockOf c0 l).length) :
    next I c l (blockOf c l) e = next I c0 l (blockOf c0 l) e := by
  refine next_eq rel.graph ?_
  rcases List.eq_nil_or_concat (blockOf c0 l) with h | ⟨pre, z, h⟩
  · have : blockOf c l = [] := by
      have := rel.len l
      rw [h] at this
      exact List.length_eq_zero_iff.1 this
    rw [h, this]
    exact Or.inr ⟨by simp, by simp⟩
  · rw [List.concat_eq_append] at h
    have hlen : (blockOf c0 l).length = pre.length + 1 := by rw [h]; simp
    have hz : instAt c0 l pre.length = some z := by rw [instAt, h]; simp
    have hlast : (blockOf c l).getLast? = instAt c l pre.length := by
      rw [List.getLast?_eq_getElem?, rel.len l, hlen]
      rfl
    have hlt : pre.length < (blockOf c l).length := by rw [rel.len l, hlen]; omega
    have hz' : instAt c l pre.length = some (blockOf c l)[pre.length] := List.getElem?_eq_getElem hlt
    generalize (blockOf c l)[pre.length] = z' at hz'
    rw [hlast, hz', h]
    rcases rel.point l _ z z' hz hz' with ⟨hp, r⟩ | ⟨hp, r⟩
    · right
      simp [hp, r.phi]
    · by_cases hc : z.t = .condGoto
      · left
        obtain ⟨h1, h2, h3⟩ := r.branch hc
        refine ⟨z, z', by simp, rfl, hc, h1, h2.symm, ?_⟩
        exact (h3 l _ e passes_own (by rw [← hlen]; exact hs)).symm
      · right
        simp [hc, r.noBranch hc]

theorem lookup_of_mem_zip {i : Inst} (hn : i.labels.Nodup) (hl : i.labels.length = i.args.length) {p : Nat}
    {a : Arg} (h : (p, a) ∈ i.labels.zip i.args) : (i.labels.zip i.args).lookup p = some a :=
  lookup_of_mem_nodup (by rw [map_fst_zip' hl]; exact hn) h

theorem enter_rel {c : Cfg} (wf : WellFormed c0) (rel : CfgRel I c0 c) {p l : Nat} {src : Nat → V}
    (hs : Sat I c0 src p (blockOf c0 p).length) :
    ∀ (is is' : List Inst) (k : Nat) (e : Nat → V), (blockOf c0 l).drop k = is →
      (blockOf c l).drop k = is' → enter I src p is' e = enter I src p is e := by
  intro is
  induction is with
  | nil =>
    intro is' k e h1 h2
    have : is'.length = 0 := by
      have g1 := congrArg List.length h1
      have g2 := congrArg List.length h2
      simp [rel.len] at g1 g2
      omega
    rw [List.length_eq_zero_iff.1 this]
  | cons i is ih =>
    intro is' k e h1 h2
    have hi : instAt c0 l k = some i := by
      have : ((blockOf c0 l).drop k)[0]? = some i := by rw [h1]; rfl
      simpa [instAt] using this
    have hlt := lt_of_instAt hi
    have hlt' : k < (blockOf c l).length := by rw [rel.len]; exact hlt
    have hi' : instAt c l k = some (blockOf c l)[k] := List.getElem?_eq_getElem hlt'
    rw [List.drop_eq_getElem_cons hlt'] at h2
    generalize (blockOf c l)[k] = i' at h2 hi'
    subst h2
    have hd : (blockOf c0 l).drop (k + 1) = is := by
      have : (blockOf c0 l).drop (k + 1) = ((blockOf c0 l).drop k).drop 1 := by simp
      rw [this, h1]
      rfl
    rw [enter, enter, ih _ (k + 1) _ hd rfl]
    congr 1
    rcases rel.point l k i i' hi hi' with ⟨hp, r⟩ | ⟨hp, r⟩
    · simp only [hp, r.phi, if_true, r.tgts]
      have sh := wf.shape l k i hi
      simp only [Shape, hp] at sh
      have hn := wf.phiOnce l k i hi hp
      cases hl' : (i'.labels.zip i'.args).lookup p with
      | none =>
        cases hl : (i.labels.zip i.args).lookup p with
        | none => rfl
        | some a =>
          exfalso
          have hm := (List.of_mem_zip (mem_of_lookup_eq hl)).1
          rw [← r.labels p, ← map_fst_zip' r.len, List.mem_map] at hm
          obtain ⟨⟨q, b⟩, hm, rfl⟩ := hm
          rw [lookup_of_mem_zip r.nodup r.len hm] at hl'
          cases hl'
      | some a' =>
        obtain ⟨a, g1, g2, g3⟩ := r.entry p a' (mem_of_lookup_eq hl')
        rw [lookup_of_mem_zip hn sh.2 g1]
        simp only [g3 src hs]
    · simp only [hp, r.notPhi, if_false]

theorem run_rel {c : Cfg} (wf : WellFormed c0) (ssa : StrictSSA c0) (rel : CfgRel I c0 c) (e : Nat → V)
    (w : W) : ∀ n, run I c e w n = run I c0 e w n := by
  intro n
  induction n with
  | zero => rw [run, run, rel.entry]
  | succ n ih =>
    have hsat := sat_run (I := I) wf ssa e w n
    rw [run, run, ih]
    generalize run I c0 e w n = x at hsat
    obtain ⟨a, e1, w1⟩ := x
    cases a with
    | none => rfl
    | some l =>
      obtain ⟨⟨ms, tr⟩, hs⟩ := hsat l rfl
      obtain ⟨-, hs'⟩ := sat_block (I := I) ssa (blockOf c0 l) 0 ms (e1, w1) rfl (Nat.zero_le _) tr hs
      simp only [step]
      rw [execAll_rel ssa rel (blockOf c0 l) (blockOf c l) 0 ms (e1, w1) rfl rfl tr hs, next_rel rel hs']
      cases next I c0 l (blockOf c0 l) (execAll I (blockOf c0 l) (e1, w1)).1 with
      | none => rfl
      | some s => simp only [enter_rel wf rel hs' (blockOf c0 s) (blockOf c s) 0 _ rfl rfl]

/-! ## Still well-formed, still strict SSA -/

theorem trail_iff {c : Cfg} (rel : CfgRel I c0 c) {ms : List Site} {l k : Nat} :
    Trail c ms l k ↔ Trail c0 ms l k := by
  constructor
  · intro h
    induction h with
    | start => rw [rel.entry]; exact .start
    | inst _ hlt ih => exact .inst ih (by rw [← rel.len]; exact hlt)
    | jump _ he ih =>
      rw [rel.len] at ih
      exact .jump ih (by rw [← rel.graph]; exact he)
  · intro h
    induction h with
    | start => rw [← rel.entry]; exact .start
    | inst _ hlt ih => exact .inst ih (by rw [rel.len]; exact hlt)
    | jump _ he ih =>
      rw [← rel.len] at ih
      exact .jump ih (by rw [rel.graph]; exact he)

theorem rel_other {c : Cfg} (rel : CfgRel I c0 c) {l k : Nat} {i' : Inst} (h : instAt c l k = some i') :
    ∃ i, instAt c0 l k = some i ∧ PointRel I c0 l k i i' := by
  have hlt : k < (blockOf c0 l).length := by rw [← rel.len]; exact lt_of_instAt h
  have hi : instAt c0 l k = some (blockOf c0 l)[k] := List.getElem?_eq_getElem hlt
  exact ⟨_, hi, rel.point l k _ i' hi h⟩

theorem rel_phi_tgts {l k : Nat} {i i' : Inst} (h : PointRel I c0 l k i i') :
    (i'.t = .phi ↔ i.t = .phi) ∧ i'.tgts = i.tgts := by
  rcases h with ⟨hp, r⟩ | ⟨hp, r⟩
  · exact ⟨⟨fun _ => hp, fun _ => r.phi⟩, r.tgts⟩
  · exact ⟨⟨fun h => absurd h r.notPhi, fun h => absurd h hp⟩, r.tgts⟩

theorem defines_iff {c : Cfg} (rel : CfgRel I c0 c) {d : Site} {v : Nat} :
    Defines c d v → Defines c0 d v := by
  cases d with
  | inst l k =>
    rintro ⟨i', h1, h2, h3⟩
    obtain ⟨i, h4, r⟩ := rel_other rel h1
    obtain ⟨g1, g2⟩ := rel_phi_tgts r
    exact ⟨i, h4, fun h => h2 (g1.2 h), g2 ▸ h3⟩
  | phis l =>
    rintro ⟨k, i', h1, h2, h3⟩
    obtain ⟨i, h4, r⟩ := rel_other rel h1
    obtain ⟨g1, g2⟩ := rel_phi_tgts r
    exact ⟨k, i, h4, g1.1 h2, g2 ▸ h3⟩

theorem avail_rel {c : Cfg} (rel : CfgRel I c0 c) {a : Arg} {l k : Nat} (h : Avail c0 a l k) : Avail c a l k :=
  fun x hx d hd ms tr => h x hx d (defines_iff rel hd) ms ((trail_iff rel).1 tr)

theorem strict_rel {c : Cfg} (ssa : StrictSSA c0) (rel : CfgRel I c0 c) : StrictSSA c where
  once := by
    intro l k i l' k' i' v h1 h2 h3 h4
    obtain ⟨j, g1, r1⟩ := rel_other rel h1
    obtain ⟨j', g2, r2⟩ := rel_other rel h2
    exact ssa.once l k j l' k' j' v g1 g2 ((rel_phi_tgts r1).2 ▸ h3) ((rel_phi_tgts r2).2 ▸ h4)
  avail := by
    intro l k i h1 h2 a ha
    obtain ⟨j, g1, r⟩ := rel_other rel h1
    rcases r with ⟨hp, r⟩ | ⟨hp, r⟩
    · exact absurd r.phi h2
    · exact avail_rel rel (r.avail a ha)
  availPhi := by
    intro l k i h1 h2 p a ha
    obtain ⟨j, g1, r⟩ := rel_other rel h1
    rcases r with ⟨hp, r⟩ | ⟨hp, r⟩
    · obtain ⟨b, -, h3, -⟩ := r.entry p a ha
      rw [rel.len]
      exact avail_rel rel h3
    · exact absurd h2 r.notPhi

theorem wf_rel {c : Cfg} (wf : WellFormed c0) (rel : CfgRel I c0 c) : WellFormed c where
  labels := by rw [rel.labels]; exact wf.labels
  entryBlock := by
    obtain ⟨is, h⟩ := block_isSome rel wf.entryBlock
    rw [rel.entry, h]; rfl
  edgeBlock := by
    intro a b h
    rw [rel.graph] at h
    obtain ⟨is, h⟩ := block_isSome rel (wf.edgeBlock a b h)
    rw [h]; rfl
  shape := by
    intro l k i h
    obtain ⟨j, g, r⟩ := rel_other rel h
    rcases r with ⟨hp, r⟩ | ⟨hp, r⟩
    · have sh := wf.shape l k j g
      simp only [Shape, hp] at sh
      simp only [Shape, r.phi]
      exact ⟨by rw [r.tgts]; exact sh.1, r.len⟩
    · exact r.shape
  branchLast := by
    intro l k i h ht
    obtain ⟨j, g, r⟩ := rel_other rel h
    rw [rel.len]
    refine wf.branchLast l k j g ?_
    rcases r with ⟨hp, r⟩ | ⟨hp, r⟩
    · rw [r.phi] at ht; cases ht
    · by_cases hc : j.t = .condGoto
      · exact hc
      · exact absurd ht (r.noBranch hc)
  branchTo := by
    intro l k i h ht
    obtain ⟨j, g, r⟩ := rel_other rel h
    rw [rel.graph]
    rcases r with ⟨hp, r⟩ | ⟨hp, r⟩
    · rw [r.phi] at ht; cases ht
    · by_cases hc : j.t = .condGoto
      · rw [(r.branch hc).2.1]
        exact wf.branchTo l k j g hc
      · exact absurd ht (r.noBranch hc)
  phiFirst := by
    intro l k j i i' h1 h2 hj h3
    obtain ⟨a, g1, r1⟩ := rel_other rel h1
    obtain ⟨b, g2, r2⟩ := rel_other rel h3
    rw [(rel_phi_tgts r2).1]
    exact wf.phiFirst l k j a b g1 ((rel_phi_tgts r1).1.1 h2) hj g2
  phiOnce := by
    intro l k i h hp
    obtain ⟨j, g, r⟩ := rel_other rel h
    rcases r with ⟨_, r⟩ | ⟨_, r⟩
    · exact r.nodup
    · exact absurd hp r.notPhi

end Verif.Opt
