import Verif.Prune.LeafRun
/-!
# The rounds of the pass
-/

namespace Verif.Prune

open Verif.Il Verif.Graph Verif.Opt Verif.Ssa

/-! ## A new entry -/

/-- The empty entry, to which nothing jumps, is dropped. -/
structure Reroot (c c' : Cfg) (n : Nat) : Prop where
  zero : c.entry = 0
  empty : Cfg.block c c.entry = some []
  child : ∀ y, c.graph.Edge c.entry y ↔ y = n
  top : ∀ x, ¬ c.graph.Edge x c.entry
  entry : c'.entry = n
  hist : Hist c'.graph
  nodes : ∀ x, x ∈ c'.graph.labels ↔ x ∈ c.graph.labels ∧ x ≠ c.entry
  edge : ∀ a b, c'.graph.Edge a b ↔ c.graph.Edge a b ∧ a ≠ c.entry
  keys : c'.bblocks.map (·.1) = (c.bblocks.map (·.1)).filter (fun x => x != c.entry)
  block : ∀ x, Cfg.block c' x = if x = c.entry then none else Cfg.block c x

section
variable {c c' : Cfg} {n : Nat}

theorem Reroot.ne (h : Reroot c c' n) : n ≠ c.entry := by
  rintro rfl
  exact h.top _ ((h.child _).2 rfl)

theorem Reroot.nophi (h : Reroot c c' n) (v : Inv c) (k : Nat) (i : Inst) (e : instAt c n k = some i) : i.t ≠ .phi :=
  fun ht => v.apart h.zero (.empty (by rw [← h.zero]; exact blockOf_some h.empty)) n k i e ht 0
    (by rw [← h.zero]; exact (h.child n).2 rfl) .refl

theorem Reroot.blockOf (h : Reroot c c' n) {x : Nat} (hx : x ≠ c.entry) : blockOf c' x = Opt.blockOf c x := by
  simp only [Opt.blockOf, h.block, if_neg hx]

theorem Reroot.isSome (h : Reroot c c' n) {x : Nat} :
    (Cfg.block c' x).isSome ↔ x ≠ c.entry ∧ (Cfg.block c x).isSome := by
  rw [h.block]
  split
  · rename_i e; simp [e]
  · rename_i e; simp [e]

theorem Reroot.back (h : Reroot c c' n) {l k : Nat} {i : Inst} (e : instAt c' l k = some i) :
    l ≠ c.entry ∧ instAt c l k = some i := by
  have hl : l ≠ c.entry := by
    rintro rfl
    have := block_of_instAt e
    rw [h.block, if_pos rfl] at this
    cases this
  exact ⟨hl, by rw [instAt, h.blockOf hl] at e; exact e⟩

theorem Reroot.wf (h : Reroot c c' n) (v : Inv c) : WellFormed c' := by
  have wf := v.prog.wf
  refine ⟨?_, ?_, ?_, ?_, ?_, ?_, ?_, ?_⟩
  · rw [h.keys]; exact wf.labels.filter _
  · rw [h.entry]
    exact h.isSome.2 ⟨h.ne, wf.edgeBlock _ _ ((h.child n).2 rfl)⟩
  · intro a b e
    obtain ⟨h1, -⟩ := (h.edge a b).1 e
    refine h.isSome.2 ⟨?_, wf.edgeBlock _ _ h1⟩
    rintro rfl
    exact h.top _ h1
  · intro l k i e
    exact wf.shape l k i (h.back e).2
  · intro l k i e ht
    obtain ⟨hl, e⟩ := h.back e
    rw [h.blockOf hl]
    exact wf.branchLast l k i e ht
  · intro l k i e ht y hy
    obtain ⟨hl, e⟩ := h.back e
    exact (h.edge _ _).2 ⟨wf.branchTo l k i e ht y hy, hl⟩
  · intro l k j i i' e ht hjk e'
    exact wf.phiFirst l k j i i' (h.back e).2 ht hjk (h.back e').2
  · intro l k i e ht
    exact wf.phiOnce l k i (h.back e).2 ht

theorem Reroot.trail (h : Reroot c c' n) {ms : List Site} {l k : Nat} (tr : Trail c' ms l k) :
    l ≠ c.entry ∧ Trail c (ms ++ [.phis n]) l k := by
  induction tr with
  | start =>
    rw [h.entry]
    refine ⟨h.ne, ?_⟩
    have h0 : Trail c [] c.entry (Opt.blockOf c c.entry).length := by
      rw [blockOf_some h.empty]; exact .start
    exact .jump h0 ((h.child n).2 rfl)
  | inst _ hk ih =>
    obtain ⟨h1, h2⟩ := ih
    refine ⟨h1, ?_⟩
    rw [h.blockOf h1] at hk
    exact .inst h2 hk
  | jump _ he ih =>
    obtain ⟨h1, h2⟩ := ih
    rw [h.blockOf h1] at h2
    have he := ((h.edge _ _).1 he).1
    refine ⟨?_, .jump h2 he⟩
    rintro rfl
    exact h.top _ he

theorem Reroot.trail' (h : Reroot c c' n) (v : Inv c) {ms : List Site} {l k : Nat} (tr : Trail c' ms l k) :
    ∃ ms2, Trail c ms2 l k ∧ ∀ d ∈ ms2, ∀ x, Defines c d x → d ∈ ms := by
  refine ⟨_, (h.trail tr).2, ?_⟩
  intro d hd x hx
  rcases List.mem_append.1 hd with hd | hd
  · exact hd
  · simp only [List.mem_singleton] at hd
    subst hd
    obtain ⟨k, i, e, ht, -⟩ := hx
    exact absurd ht (h.nophi v k i e)

theorem Reroot.ssa (h : Reroot c c' n) (v : Inv c) : StrictSSA c' := by
  refine ssa_map v.prog.ssa (fun l k => (l, k)) id ?_ ?_ ?_ ?_ ?_
  · intro l k i e
    exact ⟨i, (h.back e).2, rfl, rfl, fun _ => rfl⟩
  · intro l k i l2 k2 i2 _ _ e
    simpa using e
  · intro d x hd
    refine ⟨d, ?_, rfl⟩
    cases d with
    | inst l k =>
      obtain ⟨i, e, h1, h2⟩ := hd
      exact ⟨i, (h.back e).2, h1, h2⟩
    | phis l =>
      obtain ⟨k, i, e, h1, h2⟩ := hd
      exact ⟨k, i, (h.back e).2, h1, h2⟩
  · intro l k i e _ ms' tr
    exact h.trail' v tr
  · intro l k i e ht p a hpa
    refine ⟨p, l, k, i, (h.back e).2, ht, hpa, ?_⟩
    intro ms' tr
    have hp := (h.trail tr).1
    obtain ⟨ms, h1, h2⟩ := h.trail' v tr
    rw [h.blockOf hp] at h1
    exact ⟨ms, h1, h2⟩

theorem Reroot.reaches (h : Reroot c c' n) {x : Nat} (hx : Reach c.graph.Edge c.entry x) :
    x = c.entry ∨ Reach c'.graph.Edge c'.entry x := by
  induction hx with
  | refl => exact .inl rfl
  | @step a b h1 h2 ih =>
    right
    rcases ih with rfl | ih
    · rw [(h.child b).1 h2, h.entry]; exact .refl
    · by_cases ha : a = c.entry
      · subst ha
        rw [(h.child b).1 h2, h.entry]; exact .refl
      · exact .step ih ((h.edge _ _).2 ⟨h2, ha⟩)

theorem Reroot.hollow (h : Reroot c c' n) {x : Nat} (hh : Hollow c' x) : Hollow c x := by
  induction hh with
  | @empty p hp =>
    by_cases hx : p = c.entry
    · rw [hx]; exact .empty (blockOf_some h.empty)
    · rw [h.blockOf hx] at hp; exact .empty hp
  | @fork p d i hb ht he _ ih =>
    obtain ⟨h1, h2⟩ := (h.edge _ _).1 he
    rw [h.blockOf h2] at hb
    exact .fork hb ht h1 ih

theorem Reroot.chain (h : Reroot c c' n) {b p : Nat} (hc : Chain c' b p) : Chain c b p := by
  induction hc with
  | refl => exact .refl
  | step e hd _ ih => exact .step ((h.edge _ _).1 e).1 (h.hollow hd) ih

theorem Reroot.inv (h : Reroot c c' n) (v : Inv c) : Inv c' := by
  refine ⟨⟨h.hist, h.wf v, h.ssa v, ⟨?_, ?_⟩, ?_, ?_, ?_, ?_⟩, ?_, ?_, ?_, ?_, ?_⟩
  · intro l hl
    obtain ⟨h1, h2⟩ := h.isSome.1 hl
    exact (h.reaches (v.prog.reach.1 l h2)).resolve_left h1
  · intro a b e
    obtain ⟨h1, h2⟩ := (h.edge _ _).1 e
    exact (h.reaches (v.prog.reach.2 a b h1)).resolve_left h2
  · intro k i e
    rw [h.entry] at e
    exact h.nophi v k i (h.back e).2
  · intro l k i e ht p hp
    exact v.prog.cover l k i (h.back e).2 ht p ((h.edge _ _).1 hp).1
  · intro l hl
    obtain ⟨h1, h2⟩ := (h.nodes l).1 (contains_iff.1 hl)
    exact h.isSome.2 ⟨h2, v.prog.nodes l (contains_iff.2 h1)⟩
  · intro l k i e ht y hy
    exact v.prog.taken l k i (h.back e).2 ht y ((h.edge _ _).1 hy).1
  · intro l k i e ht p hp
    have he := v.exact l k i (h.back e).2 ht p hp
    refine (h.edge _ _).2 ⟨he, ?_⟩
    rintro rfl
    have := (h.child l).1 he
    subst this
    exact h.nophi v k i (h.back e).2 ht
  · intro l k i e ht
    exact v.forks l k i (h.back e).2 ht
  · intro l hpl a b ha hb
    obtain ⟨h1, h2⟩ := (h.edge _ _).1 ha
    refine v.only l (fun k i e => hpl k i ?_) a b h1 ((h.edge _ _).1 hb).1
    rw [instAt, h.blockOf h2]
    exact e
  · intro l k i e ht b
    obtain ⟨⟨p, hp, hn⟩, hr⟩ := v.race l k i (h.back e).2 ht b
    refine ⟨⟨p, hp, fun hc => hn (h.chain hc)⟩, ?_⟩
    intro p x q y hpx hqy hcp hcq
    exact hr p x q y hpx hqy (h.chain hcp) (h.chain hcq)
  · intro h0
    rw [h.entry] at h0
    exact absurd (h0.trans h.zero.symm) h.ne

theorem Reroot.exits (h : Reroot c c' n) (hx : NoEmptyExit c) : NoEmptyExit c' := by
  intro l hl _ hs
  obtain ⟨h1, h2⟩ := h.isSome.1 hl
  rw [h.blockOf h1]
  exact hx l h2 h1 (fun y hy => hs y ((h.edge _ _).2 ⟨hy, h1⟩))

theorem Reroot.next (h : Reroot c c' n) (v : Inv c) {V W : Type} {I : Interp V W} {l : Nat} (hl : l ≠ c.entry)
    (e : Nat → V) : Opt.next I c' l (Opt.blockOf c l) e = Opt.next I c l (Opt.blockOf c l) e := by
  by_cases hp : ∀ i ∈ Opt.blockOf c l, i.t ≠ .condGoto
  · refine next_same_plain v.hist.wf h.hist.wf hp hp ?_ e
    intro y
    rw [h.edge]
    exact ⟨fun h => h.1, fun h => ⟨h, hl⟩⟩
  · have : ∃ i ∈ Opt.blockOf c l, i.t = .condGoto := by simpa using hp
    obtain ⟨i, hi, ht⟩ := this
    obtain ⟨k, hk⟩ := mem_instAt hi
    obtain ⟨is, a, t, f, g1, g2, g3, g4, -⟩ := branch_shape v hk ht
    rw [g1, next_branch ht g3 g4, next_branch ht g3 g4]

theorem Reroot.skips (h : Reroot c c' n) (v : Inv c) : Skips c c' := by
  have h0 : Opt.blockOf c c.entry = [] := blockOf_some h.empty
  refine skips_of (fun x' x => x' = x ∧ x.at_ ≠ some c.entry) ?_ ?_ ?_
  · intro V W I e w
    have hn : Opt.next I c c.entry (Opt.blockOf c c.entry) e = some n := by
      rw [h0]
      exact next_edge_plain v.hist.wf (by simp) h.child _
    refine ⟨1, ?_, ?_⟩
    · simp only [Opt.run, h.entry]
      rw [step_to (s := (e, w)) (by rw [h0]; rfl) hn, enter_nophi]
      intro i hi
      obtain ⟨k, hk⟩ := mem_instAt hi
      exact h.nophi v k i hk
    · simp only [Opt.run]
      rw [step_to (s := (e, w)) (by rw [h0]; rfl) hn]
      simpa using h.ne
  · rintro V W I x' x ⟨rfl, hx⟩
    obtain ⟨at_, env, world⟩ := x'
    refine ⟨0, ?_⟩
    simp only [steps]
    cases at_ with
    | none => simp [Opt.step]
    | some l =>
      have hl : l ≠ c.entry := fun e => hx (by rw [e])
      generalize hs : execAll I (Opt.blockOf c l) (env, world) = s
      have hex : execAll I (Opt.blockOf c' l) (env, world) = s := by rw [h.blockOf hl, hs]
      have hnx : Opt.next I c' l (Opt.blockOf c' l) s.1 = Opt.next I c l (Opt.blockOf c l) s.1 := by
        rw [h.blockOf hl, h.next v hl]
      cases hn : Opt.next I c l (Opt.blockOf c l) s.1 with
      | none =>
        rw [step_end hs hn, step_end hex (hnx.trans hn)]
        exact ⟨rfl, by simp⟩
      | some m =>
        have hm : m ≠ c.entry := by
          rintro rfl
          exact h.top _ (next_edge v.prog.wf hn)
        rw [step_to hs hn, step_to hex (hnx.trans hn), h.blockOf hm]
        exact ⟨rfl, by simpa using hm⟩
  · rintro V W x' x ⟨rfl, -⟩
    exact ⟨Iff.rfl, rfl⟩

end

theorem length_drop {xs ys : List Nat} {l : Nat} (h : l ∈ xs) (e : ys = xs.filter (fun x => x != l)) :
    ys.length < xs.length := by
  subst e
  refine List.length_filter_lt_length_iff_exists.2 ⟨l, h, by simp⟩

theorem reroot_ok {c : Cfg} (v : Inv c) : reroot c = some none ∨
    ∃ c', reroot c = some (some c') ∧ Inv c' ∧ Skips c c' ∧ (NoEmptyExit c → NoEmptyExit c') ∧
      c'.bblocks.length < c.bblocks.length := by
  have hw := v.hist.wf
  by_cases h0 : c.entry ≠ 0
  · left; simp [reroot, h0]
  have h0 : c.entry = 0 := Classical.byContradiction h0
  obtain ⟨is, hb⟩ := Option.isSome_iff_exists.1 v.prog.wf.entryBlock
  rw [h0] at hb
  by_cases h1 : (!is.isEmpty || !(c.graph.parentsSorted 0).isEmpty) = true
  · left; simp only [reroot, h0, ne_eq, not_true_eq_false, if_false, hb, h1, if_true]
  have h1' : is = [] ∧ c.graph.parentsSorted 0 = [] := by
    cases is <;> cases hp : c.graph.parentsSorted 0 <;> simp_all
  obtain ⟨rfl, hpar⟩ := h1'
  match hc : c.graph.childrenSorted 0 with
  | [] => left; simp only [reroot, h0, ne_eq, not_true_eq_false, if_false, hb, h1, hc]; rfl
  | a :: b :: r => left; simp only [reroot, h0, ne_eq, not_true_eq_false, if_false, hb, h1, hc]; rfl
  | [n] =>
    have mc : ∀ x, c.graph.Edge 0 x ↔ x = n := fun x => by
      have : x ∈ c.graph.childrenSorted 0 ↔ c.graph.Edge 0 x := by
        rw [Graph.childrenSorted, mem_sortLabels]; rfl
      rw [← this, hc]; simp
    have top : ∀ x, ¬ c.graph.Edge x 0 := fun x hx => by
      have : x ∈ c.graph.parentsSorted 0 := by
        rw [Graph.parentsSorted, mem_sortLabels, v.hist.parent]; exact hx
      rw [hpar] at this
      cases this
    have hn : n ≠ 0 := by rintro rfl; exact top 0 ((mc 0).2 rfl)
    have hbn : Cfg.block c n = some (blockOf c n) := block_of_isSome (v.prog.wf.edgeBlock _ _ ((mc n).2 rfl))
    have nophi : ∀ i ∈ blockOf c n, i.t ≠ .phi := by
      intro i hi
      obtain ⟨k, hk⟩ := mem_instAt hi
      exact fun ht => v.apart h0 (.empty (blockOf_some hb)) n k i hk ht 0 ((mc n).2 rfl) .refl
    have htw : (blockOf c n).takeWhile (fun i => i.t == .phi) = [] := by
      cases hbl : blockOf c n with
      | nil => rfl
      | cons i r =>
        have := nophi i (by rw [hbl]; simp)
        rw [List.takeWhile_cons_of_neg]
        simpa using this
    have h0l : 0 ∈ c.graph.labels := Hist.left ((mc n).2 rfl)
    obtain ⟨g, eg, -, lg, dg⟩ := deleteMany_spec hw (u := [0]) (by simp) (by simpa using h0l) (by
      intro a b hab hb
      simp only [List.mem_singleton] at hb
      subst hb
      exact absurd hab (top a))
    have hset : ∀ x, Cfg.block (setBlock c n (blockOf c n)) x = Cfg.block c x := by
      intro x
      rw [Ssa.block_setBlock]
      split
      · rename_i e; rw [e, hbn]; rfl
      · rfl
    obtain ⟨bs, ebs⟩ : ∃ bs, removeBlock (setBlock c n (blockOf c n)).bblocks 0 = some bs := by
      simp only [removeBlock]
      have : (List.lookup 0 (setBlock c n (blockOf c n)).bblocks).isSome = true := by
        have := hset 0
        simp only [Cfg.block] at this
        rw [this]
        have hb' := hb
        simp only [Cfg.block] at hb'
        rw [hb']
        rfl
      rw [if_pos this]
      exact ⟨_, rfl⟩
    obtain ⟨k1, b1⟩ := block_removed ebs
    have hkeys : bs.map (·.1) = (c.bblocks.map (·.1)).filter (fun x => x != 0) := by rw [k1, keys_setBlock]
    have hR : Reroot c { graph := g, bblocks := bs, entry := n } n := by
      refine ⟨h0, by rw [h0]; exact hb, by rw [h0]; exact mc, by rw [h0]; exact top, rfl, ?_, ?_, ?_, ?_, ?_⟩
      · obtain ⟨ops, ho⟩ := v.hist
        exact run_contracts (g := c.graph) ho eg
      · intro x
        rw [h0, lg]; simp
      · intro a b
        have := dg a b
        simp only [List.mem_singleton] at this
        rw [h0]
        refine this.trans ⟨fun h => ⟨h.1, h.2.1⟩, fun h => ⟨h.1, h.2, ?_⟩⟩
        rintro rfl
        exact top a h.1
      · rw [h0]; exact hkeys
      · intro x
        rw [h0]
        refine (b1 x).trans ?_
        split
        · rfl
        · exact hset x
    refine .inr ⟨_, ?_, hR.inv v, hR.skips v, hR.exits, ?_⟩
    · simp only [reroot, h0, ne_eq, not_true_eq_false, if_false, hb, h1, hc, if_neg hn, hbn, htw, List.any_nil,
        mapPhis_none nophi, eg, ebs, Option.bind_eq_bind, Option.bind_some]
      rfl
    · have := length_drop (block_keys.2 ⟨_, hb⟩) hkeys
      simpa using this

/-! ## Phis -/

theorem simp_inv {c c' : Cfg} (v : Inv c) (s : Simplified c c') (hk : c'.bblocks.map (·.1) = c.bblocks.map (·.1)) :
    Inv c' := by
  have P' := simp_program v.prog s hk
  have hc := simp_complete v.prog s
  have hbr : ∀ {l k i}, instAt c' l k = some i → i.t = .condGoto → instAt c l k = some i := by
    intro l k i e ht
    obtain ⟨i0, e1, -, -⟩ := simp_back v.prog s e
    rcases simp_cases v.prog s e1 with ⟨h1, h2⟩ | ⟨h1, p, t, a, -, h3, -, h2⟩ | ⟨h1, j, h2, h3, -⟩
    · rw [e] at h2; cases h2; exact e1
    · rw [e] at h2; cases h2; cases ht
    · rw [e] at h2; cases h2; rw [ht] at h3; cases h3
  have hol : ∀ {x}, Hollow c' x → Hollow c x := by
    intro x hh
    induction hh with
    | @empty p hp =>
      have hlen := simp_length s p
      rw [hp] at hlen
      exact .empty (List.length_eq_zero_iff.1 hlen.symm)
    | @fork p d i hb ht he _ ih =>
      rw [s.1] at he
      have e := hbr (l := p) (k := 0) (i := i) (by simp [instAt, hb]) ht
      have hlen := simp_length s p
      rw [hb] at hlen
      obtain ⟨j, hj⟩ := List.length_eq_one_iff.1 hlen.symm
      rw [instAt, hj] at e
      simp only [List.getElem?_cons_zero, Option.some.injEq] at e
      subst e
      exact .fork hj ht he ih
  have chn : ∀ {b p}, Chain c' b p → Chain c b p := by
    intro b p hh
    induction hh with
    | refl => exact .refl
    | step e hd _ ih =>
      rw [s.1] at e
      exact .step e (hol hd) ih
  refine ⟨P', ?_, ?_, ?_, ?_, ?_⟩
  · intro l k i e ht p hp
    exact ((hc l k i e ht).2 p).1 hp
  · intro l k i e ht
    exact v.forks l k i (hbr e ht) ht
  · intro l hpl a b ha hb
    rw [s.1] at ha hb
    refine v.only l (fun k i e ht => ?_) a b ha hb
    rcases simp_cases v.prog s e with ⟨h1, h2⟩ | ⟨h1, -⟩ | ⟨h1, -⟩
    · exact hpl k i h2 ht
    · rw [ht] at h1; cases h1
    · rw [ht] at h1; cases h1
  · intro l k i e ht b
    obtain ⟨i0, e1, -, e2⟩ := simp_back v.prog s e
    rcases simp_cases v.prog s e1 with ⟨h1, h2⟩ | ⟨h1, p, t, a, -, h3, -, h2⟩ | ⟨h1, j, h2, h3, h4, h5, h6, h7, h8, h9⟩
    · exact absurd (e2 ht) h1
    · rw [e] at h2; cases h2; cases ht
    · rw [e] at h2
      cases h2
      obtain ⟨⟨p, hp, hn⟩, hr⟩ := v.race l k i0 e1 h1 b
      refine ⟨⟨p, (h8 p).2 (v.exact l k i0 e1 h1 p hp), fun hc => hn (chn hc)⟩, ?_⟩
      intro p x q y hpx hqy hcp hcq
      exact hr p x q y (h9 _ hpx) (h9 _ hqy) (chn hcp) (chn hcq)
  · intro h0 hh l k i e ht p hp hcp
    obtain ⟨i0, e1, -, e2⟩ := simp_back v.prog s e
    rw [s.1] at hp
    rw [s.2.1] at h0
    exact v.apart h0 (hol hh) l k i0 e1 (e2 ht) p hp (chn hcp)

theorem simp_exits {c c' : Cfg} (s : Simplified c c') (h : NoEmptyExit c) : NoEmptyExit c' := by
  intro l hl he hs hb
  rw [s.2.2] at hl
  rw [s.2.1] at he
  rw [s.1] at hs
  have hlen := simp_length s l
  rw [hb] at hlen
  exact h l (by simpa using hl) he hs (List.length_eq_zero_iff.1 hlen.symm)

/-! ## The loop over the blocks -/

/-- An empty block without successors. -/
def Leaf (c : Cfg) (x : Nat) : Prop := Cfg.block c x = some [] ∧ ∀ y, ¬ c.graph.Edge x y

/-- The block stays. -/
def Settled (c : Cfg) (l : Nat) : Prop :=
  l ≠ c.entry → ¬ c.graph.Edge l l →
    (∀ p, (∀ q, c.graph.Edge q l ↔ q = p) → ∃ s, s ≠ l ∧ c.graph.Edge p s) ∧
    (blockOf c l = [] → ∀ s, ¬ c.graph.Edge l s)

theorem visit_ok {c : Cfg} (v : Inv c) {l : Nat} (hl : l ∈ c.graph.labels) :
    ∃ c' b leaf, visitBlock c l = some (c', b, leaf) ∧ Inv c' ∧ Skips c c' ∧ c'.entry = c.entry ∧
      (c'.bblocks.length ≤ c.bblocks.length ∧ (b = true → c'.bblocks.length < c.bblocks.length)) ∧
      (∀ x, x ∈ c'.graph.labels ↔ x ∈ c.graph.labels ∧ (b = true → x ≠ l)) ∧
      (∀ x, x ∈ c'.graph.labels → Leaf c x → Leaf c' x) ∧ (leaf = true → Leaf c l ∧ l ≠ c.entry) ∧
      (NoEmptyExit c → NoEmptyExit c' ∧ leaf = false) ∧ (b = false → c' = c ∧ Settled c l) := by
  have mc : ∀ a x, x ∈ c.graph.childrenSorted a ↔ c.graph.Edge a x := fun a x => by
    rw [Graph.childrenSorted, mem_sortLabels]; rfl
  have mp : ∀ x, x ∈ c.graph.parentsSorted l ↔ c.graph.Edge x l := fun x => by
    rw [Graph.parentsSorted, mem_sortLabels, v.hist.parent]
  have hb : Cfg.block c l = some (blockOf c l) := block_of_isSome (v.prog.nodes l (contains_iff.2 hl))
  by_cases he : l = c.entry
  · refine ⟨c, false, false, by simp [visitBlock, he], v, Skips.refl c, rfl, ⟨Nat.le_refl _, by simp⟩, by simp,
      fun _ _ h => h, by simp, fun h => ⟨h, rfl⟩, fun _ => ⟨rfl, fun h => absurd he h⟩⟩
  by_cases hloop : c.graph.Edge l l
  · have : (c.graph.childrenSorted l).contains l = true := by
      rw [List.contains_iff_mem]; exact (mc l l).2 hloop
    refine ⟨c, false, false, by simp only [visitBlock, if_neg he, hb, Option.bind_eq_bind, Option.bind_some, this, if_true],
      v, Skips.refl c, rfl, ⟨Nat.le_refl _, by simp⟩, by simp, fun _ _ h => h, by simp, fun h => ⟨h, rfl⟩,
      fun _ => ⟨rfl, fun _ h => absurd hloop h⟩⟩
  have hnl : (c.graph.childrenSorted l).contains l = false := by
    simp only [List.contains_eq_mem, decide_eq_false_iff_not]
    exact fun h => hloop ((mc l l).1 h)
  have hleaf : ((blockOf c l).isEmpty && (c.graph.childrenSorted l).isEmpty) = true → Leaf c l := by
    intro h
    simp only [Bool.and_eq_true, List.isEmpty_iff] at h
    refine ⟨by rw [hb, h.1], fun y hy => ?_⟩
    have := (mc l y).2 hy
    rw [h.2] at this
    cases this
  have hne : NoEmptyExit c → ((blockOf c l).isEmpty && (c.graph.childrenSorted l).isEmpty) = false := by
    intro hx
    cases hq : ((blockOf c l).isEmpty && (c.graph.childrenSorted l).isEmpty) with
    | false => rfl
    | true =>
      obtain ⟨h1, h2⟩ := hleaf hq
      exact absurd (blockOf_some h1) (hx l (by rw [h1]; rfl) he h2)
  by_cases hcan : canPrune (c.graph.parentsSorted l) (c.graph.childrenSorted l)
      ((c.graph.parentsSorted l).all (fun p => (c.graph.childrenSorted p).length == 1)) (blockOf c l).isEmpty = true
  · obtain ⟨c', e, r⟩ := remove_ok v he hl hloop hcan
    have hlen : c'.bblocks.length < c.bblocks.length := by
      have := length_drop (block_keys.2 ⟨_, hb⟩) r.cut.keys
      simpa using this
    refine ⟨c', true, _, by
      simp only [visitBlock, if_neg he, hb, Option.bind_eq_bind, Option.bind_some, hnl, hcan, if_true, e]
      rfl, r.inv, r.skips, r.cut.entry, ⟨Nat.le_of_lt hlen, fun _ => hlen⟩, ?_, ?_, fun h => ⟨hleaf h, he⟩,
      fun h => ⟨r.exits h, hne h⟩, by simp⟩
    · intro x
      rw [r.cut.nodes]
      simp
    · intro x hx hL
      exact r.leaf x ((r.cut.nodes x).1 hx).2 hL.1 hL.2
  · have hcan' : canPrune (c.graph.parentsSorted l) (c.graph.childrenSorted l)
      ((c.graph.parentsSorted l).all (fun p => (c.graph.childrenSorted p).length == 1)) (blockOf c l).isEmpty = false := by
      simpa using hcan
    refine ⟨c, false, _, by
      simp only [visitBlock, if_neg he, hb, Option.bind_eq_bind, Option.bind_some, hnl, hcan']
      rfl, v, Skips.refl c, rfl, ⟨Nat.le_refl _, by simp⟩, by simp, fun _ _ h => h, fun h => ⟨hleaf h, he⟩,
      fun h => ⟨h, hne h⟩, fun _ => ⟨rfl, ?_⟩⟩
    intro _ _
    simp only [canPrune, Bool.or_eq_false_iff, Bool.and_eq_false_iff] at hcan'
    obtain ⟨⟨h1, h2⟩, h3⟩ := hcan'
    constructor
    · intro p hp
      have np : (c.graph.parentsSorted l).Nodup := sortLabels_perm.nodup_iff.2 (v.hist.wf.nps l)
      have hps : c.graph.parentsSorted l = [p] := by
        have : (c.graph.parentsSorted l).Perm [p] :=
          (List.perm_ext_iff_of_nodup np (by simp)).2 (fun x => by rw [mp, hp]; simp)
        exact List.perm_singleton.1 this
      rw [hps] at h1
      simp only [List.length_singleton, beq_self_eq_true, Bool.true_eq_false, List.all_cons, List.all_nil, Bool.and_true,
        false_or, beq_eq_false_iff_ne, ne_eq] at h1
      have hpl := (mc p l).2 ((hp p).2 rfl)
      have ncp : (c.graph.childrenSorted p).Nodup := sortLabels_perm.nodup_iff.2 (v.hist.wf.ncs p)
      match hcp : c.graph.childrenSorted p with
      | [] => rw [hcp] at hpl; cases hpl
      | [s] => rw [hcp] at h1; exact absurd rfl h1
      | a :: b :: r =>
        rw [hcp] at ncp
        by_cases hal : a = l
        · refine ⟨b, ?_, (mc p b).1 (by rw [hcp]; simp)⟩
          rintro rfl
          subst hal
          simp at ncp
        · exact ⟨a, hal, (mc p a).1 (by rw [hcp]; simp)⟩
    · intro hbl s hs
      rcases h2 with h2 | h2
      · have ncl : (c.graph.childrenSorted l).Nodup := sortLabels_perm.nodup_iff.2 (v.hist.wf.ncs l)
        have honly : ∀ y, c.graph.Edge l y ↔ y = s := by
          intro y
          refine ⟨fun hy => v.only l (fun k i e => ?_) y s hy hs, fun h => h ▸ hs⟩
          rw [instAt, hbl] at e
          cases e
        have : (c.graph.childrenSorted l).Perm [s] :=
          (List.perm_ext_iff_of_nodup ncl (by simp)).2 (fun x => by rw [mc, honly]; simp)
        rw [List.perm_singleton.1 this] at h2
        simp at h2
      · rw [hbl] at h2
        simp at h2

theorem visits_ok : ∀ {ls : List Nat} {c : Cfg}, Inv c → ls.Nodup → (∀ l ∈ ls, l ∈ c.graph.labels) →
    ∃ c' b es, visitBlocks ls c = some (c', b, es) ∧ Inv c' ∧ Skips c c' ∧ c'.entry = c.entry ∧
      (c'.bblocks.length ≤ c.bblocks.length ∧ (b = true → c'.bblocks.length < c.bblocks.length)) ∧
      (∀ x, x ∈ c'.graph.labels → x ∈ c.graph.labels) ∧
      (∀ x, x ∈ c'.graph.labels → Leaf c x → Leaf c' x) ∧ es.Nodup ∧ (∀ x ∈ es, x ∈ ls) ∧
      (∀ x ∈ es, x ∈ c'.graph.labels → x ≠ c'.entry ∧ Leaf c' x) ∧
      (NoEmptyExit c → NoEmptyExit c' ∧ es = []) ∧ (b = false → c' = c ∧ ∀ x ∈ ls, Settled c x)
  | [], c, v, _, _ => ⟨c, false, [], rfl, v, Skips.refl c, rfl, ⟨Nat.le_refl _, by simp⟩, fun _ h => h, fun _ _ h => h,
      by simp, by simp, by simp, fun h => ⟨h, rfl⟩, by simp⟩
  | l :: ls, c, v, hn, hl => by
    obtain ⟨hn1, hn⟩ := List.nodup_cons.1 hn
    obtain ⟨c1, b1, leaf, e1, v1, s1, n1, k1, l1, f1, g1, x1, t1⟩ := visit_ok v (hl l (by simp))
    obtain ⟨c2, b2, es, e2, v2, s2, n2, k2, l2, f2, d2, m2, g2, x2, t2⟩ := visits_ok (ls := ls) (c := c1) v1 hn (by
      intro x hx
      refine (l1 x).2 ⟨hl x (by simp [hx]), ?_⟩
      rintro - rfl
      exact hn1 hx)
    refine ⟨c2, b1 || b2, if leaf then l :: es else es, by simp [visitBlocks, e1, e2], v2, s1.trans s2, n2.trans n1,
      ⟨Nat.le_trans k2.1 k1.1, ?_⟩, fun x hx => ((l1 x).1 (l2 x hx)).1, fun x hx h => f2 x hx (f1 x (l2 x hx) h),
      ?_, ?_, ?_, ?_, ?_⟩
    · intro h
      rcases Bool.or_eq_true _ _ ▸ h with h | h
      · exact Nat.lt_of_le_of_lt k2.1 (k1.2 h)
      · exact Nat.lt_of_lt_of_le (k2.2 h) k1.1
    · split
      · exact List.nodup_cons.2 ⟨fun h => hn1 (m2 l h), d2⟩
      · exact d2
    · intro x hx
      split at hx
      · rcases List.mem_cons.1 hx with rfl | hx
        · simp
        · exact List.mem_cons_of_mem _ (m2 x hx)
      · exact List.mem_cons_of_mem _ (m2 x hx)
    · intro x hx hx2
      split at hx
      · rename_i hlf
        rcases List.mem_cons.1 hx with rfl | hx
        · obtain ⟨h1, h2⟩ := g1 hlf
          exact ⟨by rw [n2, n1]; exact h2, f2 x hx2 (f1 x (l2 x hx2) h1)⟩
        · exact g2 x hx hx2
      · exact g2 x hx hx2
    · intro h
      obtain ⟨h1, h2⟩ := x1 h
      obtain ⟨h3, h4⟩ := x2 h1
      exact ⟨h3, by rw [h2, h4]; rfl⟩
    · intro h
      simp only [Bool.or_eq_false_iff] at h
      obtain ⟨h1, h2⟩ := t1 h.1
      obtain ⟨h3, h4⟩ := t2 h.2
      subst h1
      refine ⟨h3, ?_⟩
      intro x hx
      rcases List.mem_cons.1 hx with rfl | hx
      · exact h2
      · exact h4 x hx

/-! ## A round -/

/-- Whether the phis are already simple. -/
def Simple (c : Cfg) : Prop := simplifyPhis c = some (c, false)

theorem simplify_step {c : Cfg} (v : Inv c) : ∃ c' b, simplifyPhis c = some (c', b) ∧ Inv c' ∧ Skips c c' ∧
    (NoEmptyExit c → NoEmptyExit c') ∧ c'.bblocks.length = c.bblocks.length ∧ Simple c' ∧ (b = false ↔ c' = c) := by
  obtain ⟨c', b, e, s, hk, hb⟩ := simplifyPhis_ok v.prog
  refine ⟨c', b, e, simp_inv v s hk, SameRuns.skips (fun I e w m => ⟨(simp_run v.prog s e w m).1, (simp_run v.prog s e w m).2.1⟩), simp_exits s, ?_, simp_idem v.prog s hk, hb⟩
  have := congrArg List.length hk
  simpa using this

theorem Fold.length {c c' : Cfg} {ls : List Nat} {first : Nat} (h : Fold c c' ls first) (hx : ∃ x ∈ ls, x ≠ first) :
    c'.bblocks.length < c.bblocks.length := by
  obtain ⟨x, hx, hne⟩ := hx
  have h1 : (c'.bblocks.map (·.1)).length < (c.bblocks.map (·.1)).length := by
    rw [h.keys]
    refine List.length_filter_lt_length_iff_exists.2 ⟨x, block_keys.2 ⟨_, (h.leaf x hx).2.1⟩, ?_⟩
    rw [low_in hx]
    simpa using fun e => hne e.symm
  simpa using h1

/-- A round that does not panic. -/
theorem round_sound {c c' : Cfg} (v : Inv c) {b : Bool} (e : pruneRound c = some (c', b)) :
    Inv c' ∧ Skips c c' ∧ (b = false → Simple c') := by
  simp only [pruneRound] at e
  rcases reroot_ok v with hr | ⟨c1, hr, v1, s1, -⟩
  · rw [hr] at e
    simp only [Option.bind_eq_bind, Option.bind_some] at e
    obtain ⟨c1, b1, es, e1, v1, s1, n1, -, -, -, d1, m1, g1, -⟩ := visits_ok (ls := c.graph.labelsSorted) v
      (sortLabels_perm.nodup_iff.2 v.hist.wf.keys : c.graph.labelsSorted.Nodup)
      (fun l hl => mem_sortLabels.1 hl)
    rw [e1] at e
    simp only [Option.bind_some] at e
    cases e2 : mergeLeaves es c1 with
    | none => rw [e2] at e; cases e
    | some c2 =>
      rw [e2] at e
      simp only [Option.bind_some] at e
      have hv : Inv c2 ∧ Skips c1 c2 := by
        rcases mergeLeaves_ok v1 d1 g1 e2 with rfl | ⟨ls, first, h, -⟩
        · exact ⟨v1, Skips.refl _⟩
        · exact ⟨h.inv v1, h.skips v1⟩
      obtain ⟨c3, b3, e3, v3, s3, -, -, i3, -⟩ := simplify_step hv.1
      rw [e3] at e
      simp only [Option.bind_some, Option.some.injEq, Prod.mk.injEq] at e
      obtain ⟨rfl, -⟩ := e
      exact ⟨v3, (s1.trans hv.2).trans s3, fun _ => i3⟩
  · rw [hr] at e
    simp only [Option.bind_eq_bind, Option.bind_some, Option.some.injEq, Prod.mk.injEq] at e
    obtain ⟨rfl, rfl⟩ := e
    exact ⟨v1, s1, by simp⟩

/-- A round of a program without empty exits. -/
theorem round_ok {c : Cfg} (v : Inv c) (hx : NoEmptyExit c) : ∃ c' b, pruneRound c = some (c', b) ∧ NoEmptyExit c' ∧
    c'.bblocks.length ≤ c.bblocks.length ∧
    (b = true → c'.bblocks.length < c.bblocks.length ∨ (Simple c' ∧ ¬ Simple c)) ∧
    (b = false → c' = c ∧ Merged c ∧ Simple c) := by
  rcases reroot_ok v with hr | ⟨c1, hr, v1, s1, h1, h2⟩
  · obtain ⟨c1, b1, es, e1, v1, s1, n1, k1, l1, f1, d1, m1, g1, x1, t1⟩ := visits_ok (ls := c.graph.labelsSorted) v
      (sortLabels_perm.nodup_iff.2 v.hist.wf.keys : c.graph.labelsSorted.Nodup)
      (fun l hl => mem_sortLabels.1 hl)
    obtain ⟨h1, rfl⟩ := x1 hx
    obtain ⟨c3, b3, e3, v3, s3, h3, k3, i3, t3⟩ := simplify_step v1
    have hm : mergeLeaves [] c1 = some c1 := rfl
    refine ⟨c3, b1 || b3, by simp [pruneRound, hr, e1, hm, e3], h3 h1, by rw [k3]; exact k1.1, ?_, ?_⟩
    · intro hb
      cases b1 with
      | true => exact .inl (by rw [k3]; exact k1.2 rfl)
      | false =>
        obtain ⟨rfl, -⟩ := t1 rfl
        refine .inr ⟨i3, fun hs => ?_⟩
        simp only [Bool.false_or] at hb
        rw [Simple, e3] at hs
        simp only [Option.some.injEq, Prod.mk.injEq] at hs
        rw [hs.2] at hb
        cases hb
    · intro hb
      simp only [Bool.or_eq_false_iff] at hb
      obtain ⟨rfl, hs⟩ := t1 hb.1
      have := t3.1 hb.2
      subst this
      refine ⟨rfl, ?_, i3⟩
      intro l hl hne hloop
      refine hs l ?_ hne hloop
      refine mem_sortLabels.2 ?_
      cases v.prog.reach.1 l hl with
      | refl => exact absurd rfl hne
      | step _ h => exact v.hist.right h
  · refine ⟨c1, true, by simp [pruneRound, hr], h1 hx, Nat.le_of_lt h2, fun _ => .inl h2, by simp⟩

theorem prune_sound : ∀ {fuel : Nat} {c c' : Cfg}, Inv c → cfgPrune fuel c = some c' → Inv c' ∧ Skips c c' ∧ Simple c'
  | 0, c, c', _, e => by cases e
  | fuel + 1, c, c', v, e => by
    simp only [cfgPrune] at e
    cases e1 : pruneRound c with
    | none => rw [e1] at e; cases e
    | some r =>
      obtain ⟨c1, b⟩ := r
      rw [e1] at e
      simp only [Option.bind_eq_bind, Option.bind_some] at e
      obtain ⟨v1, s1, i1⟩ := round_sound v e1
      cases b with
      | true =>
        obtain ⟨v2, s2, i2⟩ := prune_sound v1 e
        exact ⟨v2, s1.trans s2, i2⟩
      | false =>
        cases e
        exact ⟨v1, s1, i1 rfl⟩

theorem prune_ok : ∀ {fuel : Nat} {c : Cfg}, Inv c → NoEmptyExit c →
    (2 * c.bblocks.length + 2 ≤ fuel ∨ (Simple c ∧ 2 * c.bblocks.length + 1 ≤ fuel)) →
    ∃ c', cfgPrune fuel c = some c' ∧ NoEmptyExit c' ∧ Merged c' ∧ Simple c'
  | 0, c, _, _, hf => by omega
  | fuel + 1, c, v, hx, hf => by
    obtain ⟨c1, b, e1, h1, h2, h3, h4⟩ := round_ok v hx
    have v1 := (round_sound v e1).1
    simp only [cfgPrune, e1, Option.bind_eq_bind, Option.bind_some]
    cases b with
    | false =>
      obtain ⟨rfl, h5, h6⟩ := h4 rfl
      exact ⟨c1, rfl, h1, h5, h6⟩
    | true =>
      refine prune_ok v1 h1 ?_
      rcases h3 rfl with h5 | ⟨h5, h6⟩
      · left; rcases hf with hf | ⟨-, hf⟩ <;> omega
      · right
        refine ⟨h5, ?_⟩
        rcases hf with hf | ⟨hf, -⟩
        · omega
        · exact absurd hf h6

end Verif.Prune
