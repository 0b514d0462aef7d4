import Verif.Ssa.Sim
/-!
# Simplifying phis keeps the meaning of the program
-/

namespace Verif.Ssa

open Verif.Il Verif.Graph Verif.Dom Verif.Opt

/-! ## Entries -/

theorem entries_spec {ps : List Nat} {i : Inst} (hn : i.labels.Nodup) (hl : i.labels.length = i.args.length)
    (hc : ∀ p ∈ ps, p ∈ i.labels) :
    ((simplifyEntries ps i).map (·.1)).Nodup ∧
    ((simplifyEntries ps i).map (·.1)).Pairwise (fun a b : Nat => a < b) ∧
    (∀ p, p ∈ (simplifyEntries ps i).map (·.1) ↔ p ∈ ps) ∧
    ∀ e ∈ simplifyEntries ps i, e ∈ i.labels.zip i.args := by
  have hz : (i.labels.zip i.args).map (·.1) = i.labels := map_fst_zip' hl
  have hf : (((i.labels.zip i.args).filter (fun e => ps.contains e.1)).map (·.1)).Nodup := by
    refine List.Nodup.sublist (List.Sublist.map _ List.filter_sublist) ?_
    rw [hz]
    exact hn
  have hp := sortEntries_perm ((i.labels.zip i.args).filter (fun e => ps.contains e.1))
  have hsn := ((hp.map (·.1)).nodup_iff).2 hf
  have he : simplifyEntries ps i = sortEntries ((i.labels.zip i.args).filter (fun e => ps.contains e.1)) :=
    dedup_nodup hsn
  rw [he]
  refine ⟨hsn, ?_, ?_, ?_⟩
  · have h1 := sortEntries_sorted ((i.labels.zip i.args).filter (fun e => ps.contains e.1))
    exact (h1.and hsn).imp (fun h => Nat.lt_of_le_of_ne h.1 h.2)
  · intro p
    rw [(hp.map (·.1)).mem_iff]
    simp only [List.mem_map, List.mem_filter, List.contains_iff_mem]
    constructor
    · rintro ⟨e, ⟨-, h⟩, rfl⟩
      exact h
    · intro h
      have h1 := hc p h
      rw [← hz] at h1
      obtain ⟨e, h2, rfl⟩ := List.mem_map.1 h1
      exact ⟨e, ⟨h2, h⟩, rfl⟩
  · intro e h
    exact (List.mem_filter.1 (hp.mem_iff.1 h)).1

/-- What becomes of an instruction of a block with predecessors `ps`, not none. -/
def simpInst (ps : List Nat) (i : Inst) : Inst :=
  if i.t = .phi then
    match simplifyEntries ps i with
    | [e] => Inst.varAssign (i.tgts.headD 0) e.2
    | es => { i with labels := es.map (·.1), args := es.map (·.2) }
  else i

theorem simpInst_single {ps : List Nat} {i : Inst} {p : Nat} (ht : i.t = .phi) (hn : i.labels.Nodup)
    (hl : i.labels.length = i.args.length) (hc : ∀ q ∈ ps, q ∈ i.labels) (hp : ∀ q, q ∈ ps ↔ q = p) :
    ∃ a, (p, a) ∈ i.labels.zip i.args ∧ simplifyEntries ps i = [(p, a)] ∧
      simpInst ps i = Inst.varAssign (i.tgts.headD 0) a := by
  obtain ⟨h1, h2, h3, h4⟩ := entries_spec hn hl hc
  cases he : simplifyEntries ps i with
  | nil => rw [he] at h3; exact absurd ((h3 p).2 ((hp p).2 rfl)) (by simp)
  | cons e r =>
    cases r with
    | cons f r =>
      rw [he] at h1 h3
      have e1 := (hp e.1).1 ((h3 e.1).1 (by simp))
      have e2 := (hp f.1).1 ((h3 f.1).1 (by simp))
      simp [e1, e2] at h1
    | nil =>
      rw [he] at h3 h4
      obtain ⟨q, a⟩ := e
      have e1 : q = p := (hp q).1 ((h3 q).1 (by simp))
      subst e1
      exact ⟨a, h4 _ (by simp), rfl, by simp [simpInst, ht, he]⟩

theorem simpInst_multi {ps : List Nat} {i : Inst} {p q : Nat} (ht : i.t = .phi) (hn : i.labels.Nodup)
    (hl : i.labels.length = i.args.length) (hc : ∀ q ∈ ps, q ∈ i.labels) (hp : p ∈ ps) (hq : q ∈ ps)
    (hne : p ≠ q) :
    2 ≤ (simplifyEntries ps i).length ∧ simpInst ps i =
      { i with labels := (simplifyEntries ps i).map (·.1), args := (simplifyEntries ps i).map (·.2) } := by
  obtain ⟨h1, h2, h3, h4⟩ := entries_spec hn hl hc
  have m1 := (h3 p).2 hp
  have m2 := (h3 q).2 hq
  cases he : simplifyEntries ps i with
  | nil => rw [he] at m1; simp at m1
  | cons e r =>
    cases r with
    | cons f r => exact ⟨by simp, by simp [simpInst, ht, he]⟩
    | nil =>
      rw [he] at m1 m2
      simp at m1 m2
      exact absurd (m1.trans m2.symm) hne

theorem simpInst_other {ps : List Nat} {i : Inst} (ht : i.t ≠ .phi) : simpInst ps i = i := by
  simp [simpInst, ht]

/-! ## Blocks -/

/-- A phi with one target and one entry for each predecessor, and perhaps more. -/
structure GoodPhi (ps : List Nat) (i : Inst) : Prop where
  phi : i.t = .phi
  tgt : ∃ t, i.tgts = [t]
  nodup : i.labels.Nodup
  len : i.labels.length = i.args.length
  cover : ∀ p ∈ ps, p ∈ i.labels

theorem all_single {used : Nat → Bool} {ps : List Nat} {p : Nat} (hp : ∀ q, q ∈ ps ↔ q = p) :
    ∀ {is : List Inst}, (∀ i ∈ is, GoodPhi ps i) →
    ∃ b, simplifyAll used ps is = some ([], is.map (simpInst ps), b) ∧ (b = false ↔ is = [])
  | [], _ => ⟨false, rfl, by simp⟩
  | i :: is, h => by
    obtain ⟨b, e, -⟩ := all_single (used := used) hp (is := is) (fun j hj => h j (by simp [hj]))
    obtain ⟨h1, ⟨t, h2⟩, h3, h4, h5⟩ := h i (by simp)
    obtain ⟨a, -, h6, h7⟩ := simpInst_single h1 h3 h4 h5 hp
    refine ⟨true, ?_, by simp⟩
    simp [simplifyAll, simplifyPhi, h6, h2, e, h7]

theorem all_multi {used : Nat → Bool} {ps : List Nat} {p q : Nat} (hp : p ∈ ps) (hq : q ∈ ps) (hne : p ≠ q) :
    ∀ {is : List Inst}, (∀ i ∈ is, GoodPhi ps i) →
    ∃ b, simplifyAll used ps is = some (is.map (simpInst ps), [], b) ∧ (b = false ↔ is.map (simpInst ps) = is)
  | [], _ => ⟨false, rfl, by simp⟩
  | i :: is, h => by
    obtain ⟨b, e, hb⟩ := all_multi (used := used) hp hq hne (is := is) (fun j hj => h j (by simp [hj]))
    obtain ⟨h1, ⟨t, h2⟩, h3, h4, h5⟩ := h i (by simp)
    obtain ⟨h6, h7⟩ := simpInst_multi h1 h3 h4 h5 hp hq hne
    have h8 : simplifyPhi used ps i = some ([simpInst ps i], [],
        (simplifyEntries ps i).map (·.1) != i.labels || (simplifyEntries ps i).map (·.2) != i.args) := by
      rw [h7, simplifyPhi]
      split
      · next he => rw [he] at h6; simp at h6
      · next he => rw [he] at h6; simp at h6
      · rfl
    refine ⟨_, by simp only [simplifyAll, h8, e, Option.bind_eq_bind, Option.bind_some]; rfl, ?_⟩
    simp only [Bool.or_eq_false_iff, bne_eq_false_iff_eq, List.map_cons, List.cons.injEq, hb]
    refine and_congr_left' ⟨fun hf => by rw [h7, hf.1, hf.2], fun hf => ?_⟩
    rw [h7] at hf
    exact ⟨congrArg Inst.labels hf, congrArg Inst.args hf⟩

theorem phis_split : ∀ {is : List Inst}, (∀ (j k : Nat) (i i' : Inst), is[k]? = some i → i.t = .phi → j ≤ k → is[j]? = some i' → i'.t = .phi) →
    ∃ phis rest, is = phis ++ rest ∧ (∀ i ∈ phis, i.t = .phi) ∧ ∀ i ∈ rest, i.t ≠ .phi
  | [], _ => ⟨[], [], rfl, by simp, by simp⟩
  | i :: is, h => by
    by_cases hp : i.t = .phi
    · obtain ⟨ps, r, e, h1, h2⟩ := phis_split (is := is) (fun j k a b ha hpa hjk hb =>
        h (j + 1) (k + 1) a b (by simpa using ha) hpa (by omega) (by simpa using hb))
      exact ⟨i :: ps, r, by rw [e]; rfl, by simpa [hp] using h1, h2⟩
    · refine ⟨[], i :: is, rfl, by simp, ?_⟩
      intro j hj hpj
      obtain ⟨k, hk⟩ := List.getElem?_of_mem hj
      exact hp (h 0 k j i hk hpj (Nat.zero_le _) rfl)

theorem block_ok {used : Nat → Bool} {ps : List Nat} {is : List Inst}
    (hf : ∀ (j k : Nat) (i i' : Inst), is[k]? = some i → i.t = .phi → j ≤ k → is[j]? = some i' → i'.t = .phi)
    (hg : ∀ i ∈ is, i.t = .phi → GoodPhi ps i ∧ ps ≠ []) :
    ∃ b, simplifyBlock used ps is = some (is.map (simpInst ps), b) ∧ (b = false ↔ is.map (simpInst ps) = is) := by
  obtain ⟨phis, rest, rfl, hp, hr⟩ := phis_split hf
  have h1 : (phis ++ rest).filter (fun i => i.t == .phi) = phis := by
    rw [List.filter_append, List.filter_eq_self.2 (fun i hi => by simp [hp i hi]),
      List.filter_eq_nil_iff.2 (fun i hi => by simpa using hr i hi), List.append_nil]
  have h2 : (phis ++ rest).filter (fun i => i.t != .phi) = rest := by
    rw [List.filter_append, List.filter_eq_nil_iff.2 (fun i hi => by simp [hp i hi]),
      List.filter_eq_self.2 (fun i hi => by simpa using hr i hi), List.nil_append]
  have h3 : ((phis ++ rest).dropWhile (fun i => i.t == .phi)).any (fun i => i.t == .phi) = false := by
    rw [List.dropWhile_append_of_pos (fun i hi => by simp [hp i hi]), List.any_eq_false]
    intro i hi
    have := hr i (List.dropWhile_sublist _ |>.subset hi)
    simpa using this
  have h4 : rest.map (simpInst ps) = rest := by
    conv => rhs; rw [← List.map_id rest]
    exact List.map_congr_left (fun i hi => simpInst_other (hr i hi))
  simp only [simplifyBlock, h1, h2, h3, Option.bind_eq_bind, Bool.false_or, List.map_append, h4]
  have hgp : ∀ i ∈ phis, GoodPhi ps i := fun i hi => (hg i (by simp [hi]) (hp i hi)).1
  cases hps : phis with
  | nil => exact ⟨false, by simp [simplifyAll], by simp⟩
  | cons x xs =>
    have hne := (hg x (by simp [hps]) (hp x (by simp [hps]))).2
    rw [← hps]
    cases hc : ps with
    | nil => exact absurd hc hne
    | cons p r =>
      rw [← hc]
      by_cases hs : ∀ q ∈ ps, q = p
      · obtain ⟨b, e, hb⟩ := all_single (used := used) (p := p) (fun q => ⟨hs q, fun e => by simp [e, hc]⟩) hgp
        refine ⟨b, by simp [e], hb.trans ?_⟩
        simp only [List.append_left_inj]
        refine ⟨fun h => by simp [h], fun h => ?_⟩
        exfalso
        obtain ⟨a, -, -, h7⟩ := simpInst_single (p := p) (hgp x (by simp [hps])).phi (hgp x (by simp [hps])).nodup
          (hgp x (by simp [hps])).len (hgp x (by simp [hps])).cover (fun q => ⟨hs q, fun e => by simp [e, hc]⟩)
        rw [hps, List.map_cons, h7] at h
        have := (hgp x (by simp [hps])).phi
        rw [← (List.cons.inj h).1] at this
        cases this
      · have : ∃ q ∈ ps, q ≠ p := by
          refine Classical.byContradiction (fun hn => hs (fun q hq => ?_))
          exact Classical.byContradiction (fun hne => hn ⟨q, hq, hne⟩)
        obtain ⟨q, hq, hqp⟩ := this
        obtain ⟨b, e, hb⟩ := all_multi (used := used) hq (show p ∈ ps by simp [hc]) hqp hgp
        refine ⟨b, by simp [e], hb.trans ?_⟩
        simp only [List.append_left_inj]

theorem blocks_ok {used : Nat → Bool} {g : Graph} : ∀ {bs : List (Nat × List Inst)},
    (∀ e ∈ bs, ∃ b, simplifyBlock used (g.parents e.1) e.2 = some (e.2.map (simpInst (g.parents e.1)), b) ∧
      (b = false ↔ e.2.map (simpInst (g.parents e.1)) = e.2)) →
    ∃ b, simplifyBlocks used g bs = some (bs.map (fun e => (e.1, e.2.map (simpInst (g.parents e.1)))), b) ∧
      (b = false ↔ bs.map (fun e => (e.1, e.2.map (simpInst (g.parents e.1)))) = bs)
  | [], _ => ⟨false, rfl, by simp⟩
  | (l, is) :: bs, h => by
    obtain ⟨b, e, hb⟩ := h (l, is) (by simp)
    obtain ⟨b', e', hb'⟩ := blocks_ok (used := used) (g := g) (bs := bs) (fun x hx => h x (by simp [hx]))
    simp only at e hb
    refine ⟨b || b', by simp [simplifyBlocks, e, e'], ?_⟩
    simp only [Bool.or_eq_false_iff, List.map_cons, List.cons.injEq, Prod.mk.injEq, true_and, hb, hb']

/-! ## Programs -/

/-- How the simplified program comes from the program: instruction by instruction. -/
def Simplified (c c' : Cfg) : Prop :=
  c'.graph = c.graph ∧ c'.entry = c.entry ∧
    ∀ l, Cfg.block c' l = (Cfg.block c l).map (fun is => is.map (simpInst (c.graph.parents l)))

theorem lookup_map_val {f : Nat → List Inst → List Inst} : ∀ {bs : List (Nat × List Inst)} {x : Nat},
    (bs.map (fun e => (e.1, f e.1 e.2))).lookup x = (bs.lookup x).map (f x)
  | [], x => rfl
  | (l, is) :: bs, x => by
    simp only [List.map_cons, List.lookup_cons]
    by_cases h : x = l
    · subst h; simp
    · have : (x == l) = false := by simpa using h
      simp only [this]
      exact lookup_map_val

theorem instAt_of_block {c : Cfg} {l : Nat} {is : List Inst} (hb : Cfg.block c l = some is) (k : Nat) :
    instAt c l k = is[k]? := by
  simp [instAt, blockOf, hb]

theorem parents_iff {c : Cfg} (h : ∃ ops, Graph.run ops = some c.graph) (p l : Nat) :
    p ∈ c.graph.parents l ↔ c.graph.Edge p l := by
  obtain ⟨ops, h⟩ := h
  exact (C26_symmetric ops c.graph h p l).1

theorem pred_of_phi {c : Cfg} (P : SsaProgram c) {l k : Nat} {i : Inst} (e : instAt c l k = some i)
    (ht : i.t = .phi) : ∃ p, c.graph.Edge p l := by
  have hb : (Cfg.block c l).isSome := by
    cases hb : Cfg.block c l with
    | none => simp [instAt, blockOf, hb] at e
    | some is => rfl
  cases P.reach.1 l hb with
  | refl => exact absurd ht (P.entry k i e)
  | step _ h => exact ⟨_, h⟩

theorem goodPhi {c : Cfg} (P : SsaProgram c) {l k : Nat} {i : Inst} (e : instAt c l k = some i)
    (ht : i.t = .phi) : GoodPhi (c.graph.parents l) i := by
  have hs := P.wf.shape l k i e
  simp only [Shape, ht] at hs
  exact ⟨ht, hs.1, P.wf.phiOnce l k i e ht, hs.2,
    fun p hp => P.cover l k i e ht p ((parents_iff P.graph p l).1 hp)⟩

theorem simplifyPhis_ok' {c : Cfg} (P : SsaProgram c) : ∃ b, simplifyPhis c = some
      ({ c with bblocks := c.bblocks.map (fun e => (e.1, e.2.map (simpInst (c.graph.parents e.1)))) }, b) ∧
      (b = false ↔ c.bblocks.map (fun e => (e.1, e.2.map (simpInst (c.graph.parents e.1)))) = c.bblocks) := by
  obtain ⟨b, e, hb⟩ := blocks_ok (used := isUsed c) (g := c.graph) (bs := c.bblocks) (by
    rintro ⟨l, is⟩ he
    have hbl := (block_mem P.wf.labels).1 he
    refine block_ok ?_ ?_
    · intro j k i i' h1 h2 h3 h4
      rw [← instAt_of_block hbl] at h1 h4
      exact P.wf.phiFirst l k j i i' h1 h2 h3 h4
    · intro i hi hp
      obtain ⟨k, hk⟩ := List.getElem?_of_mem hi
      simp only at hk
      rw [← instAt_of_block hbl] at hk
      refine ⟨goodPhi P hk hp, ?_⟩
      obtain ⟨p, hp⟩ := pred_of_phi P hk hp
      intro hnil
      have := (parents_iff P.graph p l).2 hp
      rw [hnil] at this
      simp at this)
  exact ⟨b, by simp [simplifyPhis, e], hb⟩

theorem simplifyPhis_ok {c : Cfg} (P : SsaProgram c) : ∃ c' b, simplifyPhis c = some (c', b) ∧
    Simplified c c' ∧ c'.bblocks.map (·.1) = c.bblocks.map (·.1) ∧ (b = false ↔ c' = c) := by
  obtain ⟨b, e, hb⟩ := simplifyPhis_ok' P
  refine ⟨_, b, e, ⟨rfl, rfl, ?_⟩, ?_, ?_⟩
  · intro l
    exact lookup_map_val (f := fun l is => is.map (simpInst (c.graph.parents l)))
  · simp
  · rw [hb]
    obtain ⟨g, bs, en⟩ := c
    simp

section
variable {c c' : Cfg}

theorem simp_blockOf (s : Simplified c c') (l : Nat) :
    blockOf c' l = (blockOf c l).map (simpInst (c.graph.parents l)) := by
  simp only [blockOf, s.2.2 l]
  cases Cfg.block c l <;> simp

theorem simp_instAt (s : Simplified c c') (l k : Nat) :
    instAt c' l k = (instAt c l k).map (simpInst (c.graph.parents l)) := by
  simp [instAt, simp_blockOf s]

/-- The three fates of an instruction. -/
theorem simp_cases (P : SsaProgram c) (s : Simplified c c') {l k : Nat} {i : Inst} (e : instAt c l k = some i) :
    (i.t ≠ .phi ∧ instAt c' l k = some i) ∨
    (i.t = .phi ∧ ∃ p t a, (∀ q, c.graph.Edge q l ↔ q = p) ∧ i.tgts = [t] ∧ (p, a) ∈ i.labels.zip i.args ∧
      instAt c' l k = some (Inst.varAssign t a)) ∨
    (i.t = .phi ∧ ∃ i', instAt c' l k = some i' ∧ i'.t = .phi ∧ i'.tgts = i.tgts ∧
      i'.labels.length = i'.args.length ∧ 2 ≤ i'.labels.length ∧
      i'.labels.Pairwise (fun a b : Nat => a < b) ∧ (∀ p, p ∈ i'.labels ↔ c.graph.Edge p l) ∧
      (∀ e ∈ i'.labels.zip i'.args, e ∈ i.labels.zip i.args)) := by
  have hi := simp_instAt s l k
  rw [e, Option.map_some] at hi
  by_cases ht : i.t = .phi
  · right
    obtain ⟨h1, ⟨t, h2⟩, h3, h4, h5⟩ := goodPhi P e ht
    obtain ⟨p, hp⟩ := pred_of_phi P e ht
    by_cases hs : ∀ q, c.graph.Edge q l → q = p
    · left
      have hq : ∀ q, q ∈ c.graph.parents l ↔ q = p := fun q =>
        (parents_iff P.graph q l).trans ⟨hs q, fun h => h ▸ hp⟩
      obtain ⟨a, h6, -, h7⟩ := simpInst_single h1 h3 h4 h5 hq
      refine ⟨ht, p, t, a, fun q => ⟨hs q, fun h => h ▸ hp⟩, h2, h6, ?_⟩
      rw [hi, h7, h2]
      rfl
    · right
      have : ∃ q, c.graph.Edge q l ∧ q ≠ p := by
        refine Classical.byContradiction (fun hn => hs (fun q hq => ?_))
        exact Classical.byContradiction (fun hne => hn ⟨q, hq, hne⟩)
      obtain ⟨q, hq, hqp⟩ := this
      obtain ⟨h6, h7⟩ := simpInst_multi h1 h3 h4 h5 ((parents_iff P.graph q l).2 hq)
        ((parents_iff P.graph p l).2 hp) hqp
      obtain ⟨g1, g2, g3, g4⟩ := entries_spec h3 h4 h5
      refine ⟨ht, _, hi, ?_⟩
      rw [h7]
      refine ⟨ht, rfl, by simp, by simpa using h6, g2, ?_, ?_⟩
      · intro p
        exact (g3 p).trans (parents_iff P.graph p l)
      · simp only [zip_unzip']
        exact g4
  · exact .inl ⟨ht, by rw [hi, simpInst_other ht]⟩

/-- The same from the other side. -/
theorem simp_back (P : SsaProgram c) (s : Simplified c c') {l k : Nat} {i' : Inst} (e : instAt c' l k = some i') :
    ∃ i, instAt c l k = some i ∧ i'.tgts = i.tgts ∧ (i'.t = .phi → i.t = .phi) := by
  have hi := simp_instAt s l k
  rw [e] at hi
  cases h : instAt c l k with
  | none => rw [h] at hi; simp at hi
  | some i =>
    refine ⟨i, rfl, ?_⟩
    rcases simp_cases P s h with ⟨h1, h2⟩ | ⟨h1, p, t, a, -, h3, -, h2⟩ | ⟨h1, j, h2, h3, h4, -⟩
    · rw [e] at h2; cases h2; exact ⟨rfl, id⟩
    · rw [e] at h2; cases h2; exact ⟨h3.symm, fun _ => h1⟩
    · rw [e] at h2; cases h2; exact ⟨h4, fun _ => h1⟩

theorem simp_length (s : Simplified c c') (l : Nat) : (blockOf c' l).length = (blockOf c l).length := by
  simp [simp_blockOf s]

/-- If one phi of a block stays, all do. -/
theorem simp_phi (P : SsaProgram c) (s : Simplified c c') {l k : Nat} {i' : Inst} (e : instAt c' l k = some i')
    (ht : i'.t = .phi) : ∃ p q, c.graph.Edge p l ∧ c.graph.Edge q l ∧ p ≠ q := by
  obtain ⟨i, e1, -, e2⟩ := simp_back P s e
  rcases simp_cases P s e1 with ⟨h1, -⟩ | ⟨h1, p, t, a, -, h3, -, h2⟩ | ⟨h1, j, h2, h3, h4, h5, h6, h7, h8, -⟩
  · exact absurd (e2 ht) h1
  · rw [e] at h2; cases h2; cases ht
  · rw [e] at h2; cases h2
    match hl : i'.labels with
    | [] => rw [hl] at h6; simp at h6
    | [x] => rw [hl] at h6; simp at h6
    | x :: y :: r =>
      rw [hl] at h7 h8
      refine ⟨x, y, (h8 x).1 (by simp), (h8 y).1 (by simp), ?_⟩
      have := (List.pairwise_cons.1 h7).1 y (by simp)
      omega

theorem simp_wf (P : SsaProgram c) (s : Simplified c c') (hk : c'.bblocks.map (·.1) = c.bblocks.map (·.1)) :
    WellFormed c' := by
  have wf := P.wf
  refine ⟨hk ▸ wf.labels, ?_, ?_, ?_, ?_, ?_, ?_, ?_⟩
  · rw [s.2.1, s.2.2]
    simpa using wf.entryBlock
  · intro a b h
    rw [s.1] at h
    rw [s.2.2]
    simpa using wf.edgeBlock a b h
  · intro l k i' e
    obtain ⟨i, e1, -, -⟩ := simp_back P s e
    rcases simp_cases P s e1 with ⟨h1, h2⟩ | ⟨h1, p, t, a, -, h3, -, h2⟩ | ⟨h1, j, h2, h3, h4, h5, -⟩
    · rw [e] at h2; cases h2; exact wf.shape l k _ e1
    · rw [e] at h2; cases h2; exact ⟨⟨t, rfl⟩, a, rfl⟩
    · rw [e] at h2; cases h2
      have := wf.shape l k i e1
      simp only [Shape, h1] at this
      simp only [Shape, h3, h4]
      exact ⟨this.1, h5⟩
  · intro l k i' e ht
    obtain ⟨i, e1, -, -⟩ := simp_back P s e
    rw [simp_length s]
    rcases simp_cases P s e1 with ⟨h1, h2⟩ | ⟨h1, p, t, a, -, h3, -, h2⟩ | ⟨h1, j, h2, h3, -⟩
    · rw [e] at h2; cases h2; exact wf.branchLast l k _ e1 ht
    · rw [e] at h2; cases h2; cases ht
    · rw [e] at h2; cases h2; rw [ht] at h3; cases h3
  · intro l k i' e ht
    obtain ⟨i, e1, -, -⟩ := simp_back P s e
    rw [s.1]
    rcases simp_cases P s e1 with ⟨h1, h2⟩ | ⟨h1, p, t, a, -, h3, -, h2⟩ | ⟨h1, j, h2, h3, -⟩
    · rw [e] at h2; cases h2; exact wf.branchTo l k _ e1 ht
    · rw [e] at h2; cases h2; cases ht
    · rw [e] at h2; cases h2; rw [ht] at h3; cases h3
  · intro l k j i' j' e ht hjk ej
    obtain ⟨p, q, hp, hq, hne⟩ := simp_phi P s e ht
    obtain ⟨i, e1, -, e2⟩ := simp_back P s e
    obtain ⟨i2, e3, -, -⟩ := simp_back P s ej
    have hphi := wf.phiFirst l k j i i2 e1 (e2 ht) hjk e3
    rcases simp_cases P s e3 with ⟨h1, h2⟩ | ⟨h1, r, t, a, h4, h3, -, h2⟩ | ⟨h1, j, h2, h3, -⟩
    · exact absurd hphi h1
    · exact absurd (((h4 p).1 hp).trans ((h4 q).1 hq).symm) hne
    · rw [ej] at h2; cases h2; exact h3
  · intro l k i' e ht
    obtain ⟨i, e1, -, e2⟩ := simp_back P s e
    rcases simp_cases P s e1 with ⟨h1, h2⟩ | ⟨h1, p, t, a, -, h3, -, h2⟩ | ⟨h1, j, h2, h3, h4, h5, h6, h7, -⟩
    · exact absurd (e2 ht) h1
    · rw [e] at h2; cases h2; cases ht
    · rw [e] at h2; cases h2
      exact h7.imp (fun h => Nat.ne_of_lt h)

/-! ## Strict SSA -/

theorem simp_trail (s : Simplified c c') {ms : List Site} {l k : Nat} (h : Trail c' ms l k) : Trail c ms l k := by
  induction h with
  | start => rw [s.2.1]; exact .start
  | inst _ hk ih => exact .inst ih (by rwa [simp_length s] at hk)
  | jump _ he ih =>
    rw [simp_length s] at ih
    rw [s.1] at he
    exact .jump ih he

theorem phis_then_inst {l k : Nat} (hk : k < (blockOf c l).length) {ms : List Site} {l' k' : Nat}
    (h : Trail c ms l' k') : Site.phis l ∈ ms → Site.inst l k ∈ ms ∨ (l' = l ∧ k' ≤ k) := by
  induction h with
  | start => simp
  | @inst ms a b h1 h2 ih =>
    intro h
    simp only [List.mem_cons, reduceCtorEq, false_or] at h
    rcases ih h with h | ⟨rfl, h⟩
    · exact .inl (List.mem_cons_of_mem _ h)
    · by_cases hbk : b = k
      · subst hbk
        exact .inl List.mem_cons_self
      · exact .inr ⟨rfl, by omega⟩
  | @jump ms a b h1 h2 ih =>
    intro h
    rcases List.mem_cons.1 h with h | h
    · cases h
      exact .inr ⟨rfl, Nat.zero_le _⟩
    · rcases ih h with h | ⟨rfl, h⟩
      · exact .inl (List.mem_cons_of_mem _ h)
      · omega

theorem simp_defines (P : SsaProgram c) (s : Simplified c c') {d : Site} {v : Nat} (h : Defines c' d v) :
    Defines c d v ∨ ∃ l k i, d = .inst l k ∧ instAt c l k = some i ∧ i.t = .phi ∧ Defines c (.phis l) v := by
  cases d with
  | inst l k =>
    obtain ⟨i', e, h1, h2⟩ := h
    obtain ⟨i, e1, e2, e3⟩ := simp_back P s e
    by_cases hp : i.t = .phi
    · exact .inr ⟨l, k, i, rfl, e1, hp, k, i, e1, hp, e2 ▸ h2⟩
    · exact .inl ⟨i, e1, hp, e2 ▸ h2⟩
  | phis l =>
    obtain ⟨k, i', e, h1, h2⟩ := h
    obtain ⟨i, e1, e2, e3⟩ := simp_back P s e
    exact .inl ⟨k, i, e1, e3 h1, e2 ▸ h2⟩

theorem simp_passes (P : SsaProgram c) (s : Simplified c c') {x : Nat} {d : Site} (hd : Defines c' d x)
    {l k : Nat} (ha : Avail c (.var x) l k) (hk : ∀ k0 i, instAt c l k0 = some i → i.t = .phi → k0 < k)
    {ms : List Site} (h : Trail c ms l k) : d ∈ ms := by
  rcases simp_defines P s hd with hd | ⟨a, b, i, rfl, e, ht, hd⟩
  · exact ha x rfl d hd ms h
  · rcases phis_then_inst (lt_of_instAt e) h (ha x rfl _ hd ms h) with h | ⟨rfl, h⟩
    · exact h
    · have := hk b i e ht
      omega

theorem end_after_phis {l k0 : Nat} {i : Inst} (e : instAt c l k0 = some i) (_ : i.t = .phi) :
    k0 < (blockOf c l).length := lt_of_instAt e

/-- A walk into a block with one predecessor has passed the end of it. -/
theorem trail_pred {l p : Nat} (hne : l ≠ c.entry) (hp : ∀ q, c.graph.Edge q l → q = p) {ms : List Site}
    {k : Nat} (h : Trail c ms l k) :
    ∃ xs ms', ms = xs ++ .phis l :: ms' ∧ Trail c ms' p (blockOf c p).length := by
  generalize hl : l = l0 at h
  induction h with
  | start => exact absurd hl hne
  | inst h1 h2 ih =>
    obtain ⟨xs, ms', e, h⟩ := ih hl
    exact ⟨_ :: xs, ms', by rw [e]; rfl, h⟩
  | jump h1 h2 ih =>
    subst hl
    have := hp _ h2
    subst this
    exact ⟨[], _, rfl, h1⟩

theorem simp_ssa (P : SsaProgram c) (s : Simplified c c') : StrictSSA c' := by
  refine ⟨?_, ?_, ?_⟩
  · intro l k i' l' k' j' v e e' h h'
    obtain ⟨i, e1, e2, -⟩ := simp_back P s e
    obtain ⟨j, e3, e4, -⟩ := simp_back P s e'
    exact P.ssa.once l k i l' k' j v e1 e3 (e2 ▸ h) (e4 ▸ h')
  · intro l k i' e ht a ha x hx d hd ms tr
    subst hx
    have tr := simp_trail s tr
    obtain ⟨i, e1, -, -⟩ := simp_back P s e
    rcases simp_cases P s e1 with ⟨h1, h2⟩ | ⟨h1, p, t, b, h5, h3, h4, h2⟩ | ⟨h1, j, h2, h3, -⟩
    · rw [e] at h2; cases h2
      refine simp_passes P s hd (P.ssa.avail l k _ e1 h1 _ ha) ?_ tr
      intro k0 j e0 hj
      refine Nat.lt_of_not_le (fun hle => h1 ?_)
      exact P.wf.phiFirst l k0 k j _ e0 hj hle e1
    · rw [e] at h2; cases h2
      simp only [Inst.varAssign, List.mem_singleton] at ha
      subst ha
      have hne : l ≠ c.entry := by
        rintro rfl
        exact P.entry k i e1 h1
      obtain ⟨xs, ms', e5, tr'⟩ := trail_pred hne (fun q hq => (h5 q).1 hq) tr
      have := simp_passes P s hd (P.ssa.availPhi l k i e1 h1 p _ h4)
        (fun k0 j e0 hj => end_after_phis e0 hj) tr'
      rw [e5]
      simp [this]
    · rw [e] at h2; cases h2; exact absurd h3 ht
  · intro l k i' e ht p a hpa x hx d hd ms tr
    subst hx
    rw [simp_length s] at tr
    have tr := simp_trail s tr
    obtain ⟨i, e1, -, e2⟩ := simp_back P s e
    rcases simp_cases P s e1 with ⟨h1, h2⟩ | ⟨h1, q, t, b, h5, h3, h4, h2⟩ | ⟨h1, j, h2, h3, h4, h5, h6, h7, h8, h9⟩
    · exact absurd (e2 ht) h1
    · rw [e] at h2; cases h2; cases ht
    · rw [e] at h2; cases h2
      exact simp_passes P s hd (P.ssa.availPhi l k i e1 h1 p _ (h9 _ hpa))
        (fun k0 j e0 hj => end_after_phis e0 hj) tr

theorem simp_program (P : SsaProgram c) (s : Simplified c c') (hk : c'.bblocks.map (·.1) = c.bblocks.map (·.1)) :
    SsaProgram c' := by
  refine ⟨by rw [s.1]; exact P.graph, simp_wf P s hk, simp_ssa P s, ⟨?_, ?_⟩, ?_, ?_, ?_, ?_⟩
  · intro l h
    rw [s.1, s.2.1]
    rw [s.2.2] at h
    exact P.reach.1 l (by simpa using h)
  · rw [s.1, s.2.1]
    exact P.reach.2
  · intro k i' e ht
    rw [s.2.1] at e
    obtain ⟨i, e1, -, e2⟩ := simp_back P s e
    exact P.entry k i e1 (e2 ht)
  · intro l k i' e ht p hp
    rw [s.1] at hp
    obtain ⟨i, e1, -, e2⟩ := simp_back P s e
    rcases simp_cases P s e1 with ⟨h1, h2⟩ | ⟨h1, q, t, b, h5, h3, h4, h2⟩ | ⟨h1, j, h2, h3, h4, h5, h6, h7, h8, h9⟩
    · exact absurd (e2 ht) h1
    · rw [e] at h2; cases h2; cases ht
    · rw [e] at h2; cases h2; exact (h8 p).2 hp
  · intro l h
    rw [s.1] at h
    rw [s.2.2]
    simpa using P.nodes l h
  · intro l k i' e ht x hx
    rw [s.1] at hx
    obtain ⟨i, e1, -, -⟩ := simp_back P s e
    rcases simp_cases P s e1 with ⟨h1, h2⟩ | ⟨h1, p, t, a, -, h3, -, h2⟩ | ⟨h1, j, h2, h3, -⟩
    · rw [e] at h2; cases h2; exact P.taken l k _ e1 ht x hx
    · rw [e] at h2; cases h2; cases ht
    · rw [e] at h2; cases h2; rw [ht] at h3; cases h3

theorem sort_sorted : ∀ {es : List (Nat × Arg)}, (es.map (·.1)).Pairwise (fun a b : Nat => a < b) →
    sortEntries es = es
  | [], _ => rfl
  | [e], _ => rfl
  | e :: f :: r, h => by
    have ih := sort_sorted (es := f :: r) (List.pairwise_cons.1 h).2
    have : sortEntries (e :: f :: r) = insertEntry e (sortEntries (f :: r)) := rfl
    rw [this, ih, insertEntry, if_pos]
    have : e.1 < f.1 := (List.pairwise_cons.1 h).1 f.1 (by simp)
    omega

/-- A phi that is already simple stays as it is. -/
theorem simpInst_id {ps : List Nat} {i : Inst} (ht : i.t = .phi) (hl : i.labels.length = i.args.length)
    (h2 : 2 ≤ i.labels.length) (hs : i.labels.Pairwise (fun a b : Nat => a < b)) (hp : ∀ p ∈ i.labels, p ∈ ps) :
    simpInst ps i = i := by
  have hz : (i.labels.zip i.args).map (·.1) = i.labels := map_fst_zip' hl
  have hf : (i.labels.zip i.args).filter (fun e => ps.contains e.1) = i.labels.zip i.args := by
    rw [List.filter_eq_self]
    rintro ⟨a, b⟩ he
    have := hp a (List.of_mem_zip he).1
    simpa using this
  have hes : simplifyEntries ps i = i.labels.zip i.args := by
    rw [simplifyEntries, hf, sort_sorted (by rw [hz]; exact hs)]
    exact dedup_nodup (by rw [hz]; exact hs.imp (fun h => Nat.ne_of_lt h))
  have hlen : 2 ≤ (i.labels.zip i.args).length := by
    rw [List.length_zip, ← hl, Nat.min_self]
    exact h2
  rw [simpInst, if_pos ht, hes]
  split
  · next he => rw [he] at hlen; simp at hlen
  · have h3 : (i.labels.zip i.args).map (·.2) = i.args := by
      simp [List.map_snd_zip, hl]
    rw [hz, h3]

/-- The simplified program is simple. -/
theorem simp_idem (P : SsaProgram c) (s : Simplified c c') (hk : c'.bblocks.map (·.1) = c.bblocks.map (·.1)) :
    simplifyPhis c' = some (c', false) := by
  have P' := simp_program P s hk
  obtain ⟨c'', b, e, s', hk', hb⟩ := simplifyPhis_ok P'
  have hall : ∀ x ∈ c'.bblocks, x.2.map (simpInst (c'.graph.parents x.1)) = x.2 := by
    rintro ⟨l, is⟩ hx
    have hbl := (block_mem P'.wf.labels).1 hx
    conv => rhs; rw [← List.map_id is]
    refine List.map_congr_left ?_
    intro i' hi
    obtain ⟨k, hk⟩ := List.getElem?_of_mem hi
    rw [← instAt_of_block hbl] at hk
    by_cases ht : i'.t = .phi
    · obtain ⟨i, e1, -, e2⟩ := simp_back P s hk
      rcases simp_cases P s e1 with ⟨h1, -⟩ | ⟨h1, p, t, a, -, h3, -, h2⟩ | ⟨h1, j, h2, h3, h4, h5, h6, h7, h8, -⟩
      · exact absurd (e2 ht) h1
      · rw [hk] at h2; cases h2; cases ht
      · rw [hk] at h2; cases h2
        refine simpInst_id ht h5 h6 h7 ?_
        intro p hp
        exact (parents_iff P'.graph p l).2 (s.1 ▸ (h8 p).1 hp)
    · exact simpInst_other ht
  have hblocks : c'.bblocks.map (fun x => (x.1, x.2.map (simpInst (c'.graph.parents x.1)))) = c'.bblocks := by
    conv => rhs; rw [← List.map_id c'.bblocks]
    exact List.map_congr_left (fun x hx => by simp [hall x hx])
  have hc : c'' = c' := by
    obtain ⟨b', e', hb'⟩ := simplifyPhis_ok' P'
    rw [e] at e'
    simp only [Option.some.injEq, Prod.mk.injEq] at e'
    rw [e'.1]
    simp only [hblocks]
  rw [e, hc, hb.2 hc]

theorem simp_complete (P : SsaProgram c) (s : Simplified c c') : PhisComplete c' := by
  intro l k i' e ht
  obtain ⟨i, e1, -, e2⟩ := simp_back P s e
  rcases simp_cases P s e1 with ⟨h1, h2⟩ | ⟨h1, q, t, b, h5, h3, h4, h2⟩ | ⟨h1, j, h2, h3, h4, h5, h6, h7, h8, h9⟩
  · exact absurd (e2 ht) h1
  · rw [e] at h2; cases h2; cases ht
  · rw [e] at h2; cases h2
    rw [s.1]
    exact ⟨h7, h8⟩

end

/-! ## Runs -/

section
variable {V W : Type} {I : Interp V W} {c c' : Cfg}

/-- No phi of a block with one predecessor reads the target of a phi of that block. -/
theorem single_no_clobber (P : SsaProgram c) {l p : Nat} (hp : ∀ q, c.graph.Edge q l ↔ q = p) {j k t : Nat}
    {i i' : Inst} (e : instAt c l j = some i) (ht : i.t = .phi) (e' : instAt c l k = some i') (ht' : i'.t = .phi)
    (hi : t ∈ i.tgts) (hi' : (p, Arg.var t) ∈ i'.labels.zip i'.args) : False := by
  have hpass := P.ssa.availPhi l k i' e' ht' p _ hi' t rfl (.phis l) ⟨j, i, e, ht, hi⟩
  have hne : l ≠ c.entry := by
    rintro rfl
    exact P.entry j i e ht
  have key : ∀ (n : Nat) (ms : List Site), ms.length ≤ n → ¬ Trail c ms p (blockOf c p).length := by
    intro n
    induction n with
    | zero =>
      intro ms hn h
      have := hpass ms h
      cases ms with
      | nil => cases this
      | cons a as => simp at hn
    | succ n ih =>
      intro ms hn h
      obtain ⟨as, bs, rfl⟩ := List.append_of_mem (hpass ms h)
      obtain ⟨l', k', h'⟩ := trail_suffix h
      cases h' with
      | jump h1 h2 =>
        have := (hp _).1 h2
        subst this
        refine ih bs ?_ h1
        simp only [List.length_append, List.length_cons] at hn
        omega
  obtain ⟨ms, tr⟩ := trail_of_reach (P.reach.2 p l ((hp p).2 rfl))
  obtain ⟨ms', tr'⟩ := trail_to_end tr _ (Nat.le_refl _)
  exact key _ ms' (Nat.le_refl _) tr'

theorem copies_exec {ps : List Nat} {p : Nat} {src : Nat → V} (hp : ∀ q, q ∈ ps ↔ q = p) :
    ∀ {is : List Inst} {e : Nat → V} {w : W}, (∀ i ∈ is, GoodPhi ps i) →
    (∀ i ∈ is, ∀ i' ∈ is, ∀ t ∈ i.tgts, (p, Arg.var t) ∉ i'.labels.zip i'.args) →
    (∀ i ∈ is, ∀ t, (p, Arg.var t) ∈ i.labels.zip i.args → e t = src t) →
    execAll I (is.map (simpInst ps)) (e, w) = (enter I src p is e, w)
  | [], _, _, _, _, _ => rfl
  | i :: is, e, w, hg, hc, hs => by
    obtain ⟨h1, ⟨t, h2⟩, h3, h4, h5⟩ := hg i (by simp)
    obtain ⟨a, h6, -, h7⟩ := simpInst_single h1 h3 h4 h5 hp
    have hv : valOf I e a = valOf I src a := valOf_congr I (fun x hx => hs i (by simp) x (hx ▸ h6))
    have hstep : execAll I ((i :: is).map (simpInst ps)) (e, w) =
        execAll I (is.map (simpInst ps)) (setAll e i.tgts (valOf I src a), w) := by
      simp [execAll, h7, exec, Inst.varAssign, h2, hv]
    rw [hstep]
    have hl := lookup_of_mem_zip h3 h4 h6
    simp only [enter, h1, if_true, hl]
    refine copies_exec hp (fun j hj => hg j (by simp [hj])) (fun j hj j' hj' => hc j (by simp [hj]) j' (by simp [hj'])) ?_
    intro j hj x hx
    rw [setAll_of_not_mem]
    · exact hs j (by simp [hj]) x hx
    · intro hxt
      exact hc i (by simp) j (by simp [hj]) x hxt hx

theorem kept_enter {ps : List Nat} {p q : Nat} {src : Nat → V} (hp : p ∈ ps) (hq : q ∈ ps) (hne : p ≠ q) :
    ∀ {is : List Inst} {e : Nat → V}, (∀ i ∈ is, GoodPhi ps i) →
    enter I src p (is.map (simpInst ps)) e = enter I src p is e ∧ ∀ i ∈ is.map (simpInst ps), i.t = .phi
  | [], _, _ => ⟨rfl, by simp⟩
  | i :: is, e, hg => by
    obtain ⟨h1, ⟨t, h2⟩, h3, h4, h5⟩ := hg i (by simp)
    obtain ⟨h6, h7⟩ := simpInst_multi h1 h3 h4 h5 hp hq hne
    obtain ⟨g1, g2, g3, g4⟩ := entries_spec h3 h4 h5
    have hm := (g3 p).2 hp
    obtain ⟨⟨p', a⟩, hm1, hm2⟩ := List.mem_map.1 hm
    simp only at hm2
    subst hm2
    have hl : (i.labels.zip i.args).lookup p' = some a := lookup_of_mem_zip h3 h4 (g4 _ hm1)
    have hl' : (simplifyEntries ps i).lookup p' = some a := lookup_of_mem_nodup g1 hm1
    have htp : (simpInst ps i).t = .phi := by rw [h7]; exact h1
    have ih := fun e => kept_enter (is := is) (e := e) (src := src) hp hq hne (fun j hj => hg j (by simp [hj]))
    refine ⟨?_, ?_⟩
    · rw [List.map_cons, enter, enter, (ih _).1]
      simp only [htp, if_true, h1]
      rw [h7]
      simp only [zip_unzip', hl, hl']
    · intro j hj
      rcases List.mem_cons.1 hj with rfl | hj
      · exact htp
      · exact (ih e).2 j hj

theorem simp_split (P : SsaProgram c) (l : Nat) : ∃ phis rest, blockOf c l = phis ++ rest ∧
    (∀ i ∈ phis, i.t = .phi) ∧ ∀ i ∈ rest, i.t ≠ .phi :=
  phis_split (fun j k i i' h1 h2 h3 h4 => P.wf.phiFirst l k j i i' h1 h2 h3 h4)

theorem simp_next (P : SsaProgram c) (s : Simplified c c') (l : Nat) (e : Nat → V) :
    next I c' l (blockOf c' l) e = next I c l (blockOf c l) e := by
  have hl : (blockOf c' l).getLast? = ((blockOf c l).getLast?).map (simpInst (c.graph.parents l)) := by
    rw [simp_blockOf s, List.getLast?_map]
  simp only [next, hl, s.1]
  cases h : (blockOf c l).getLast? with
  | none => rfl
  | some i =>
    simp only [Option.map_some]
    by_cases hp : i.t = .phi
    · have h0 : i.t ≠ .condGoto := by rw [hp]; simp
      have h1 : (simpInst (c.graph.parents l) i).t ≠ .condGoto := by
        rw [simpInst, if_pos hp]
        split
        · simp [Inst.varAssign]
        · exact h0
      rw [if_neg h0, if_neg h1]
    · rw [simpInst_other hp]

theorem simp_enter (P : SsaProgram c) (s : Simplified c c') {l n : Nat} (he : c.graph.Edge l n) {phis rest : List Inst}
    (hb : blockOf c n = phis ++ rest) (hp : ∀ i ∈ phis, i.t = .phi) (hr : ∀ i ∈ rest, i.t ≠ .phi)
    (e : Nat → V) (w : W) :
    execAll I (phis.map (simpInst (c.graph.parents n))) (enter I e l (blockOf c' n) e, w) =
      (enter I e l (blockOf c n) e, w) := by
  have hat : ∀ i ∈ phis, ∃ k, instAt c n k = some i := by
    intro i hi
    have : i ∈ blockOf c n := by rw [hb]; simp [hi]
    obtain ⟨k, hk⟩ := List.getElem?_of_mem this
    exact ⟨k, hk⟩
  have hgp : ∀ i ∈ phis, GoodPhi (c.graph.parents n) i := by
    intro i hi
    obtain ⟨k, hk⟩ := hat i hi
    exact goodPhi P hk (hp i hi)
  have hrest : rest.map (simpInst (c.graph.parents n)) = rest := by
    conv => rhs; rw [← List.map_id rest]
    exact List.map_congr_left (fun i hi => simpInst_other (hr i hi))
  have hb' : blockOf c' n = phis.map (simpInst (c.graph.parents n)) ++ rest := by
    rw [simp_blockOf s, hb, List.map_append, hrest]
  rw [hb, hb', enter_append, enter_append, enter_noPhi e l hr, enter_noPhi e l hr]
  by_cases hs : ∀ q, c.graph.Edge q n → q = l
  · have hq : ∀ q, q ∈ c.graph.parents n ↔ q = l := fun q =>
      (parents_iff P.graph q n).trans ⟨hs q, fun h => h ▸ he⟩
    have hcopy : ∀ i ∈ phis.map (simpInst (c.graph.parents n)), i.t ≠ .phi := by
      intro j hj
      obtain ⟨i, hi, rfl⟩ := List.mem_map.1 hj
      obtain ⟨h1, ⟨t, h2⟩, h3, h4, h5⟩ := hgp i hi
      obtain ⟨a, -, -, h7⟩ := simpInst_single h1 h3 h4 h5 hq
      rw [h7]
      simp [Inst.varAssign]
    rw [enter_noPhi e l hcopy]
    refine copies_exec hq hgp ?_ (fun _ _ _ _ => rfl)
    intro i hi i' hi' t ht hmem
    obtain ⟨j, hj⟩ := hat i hi
    obtain ⟨k, hk⟩ := hat i' hi'
    exact single_no_clobber P (fun q => ⟨hs q, fun h => h ▸ he⟩) hj (hp i hi) hk (hp i' hi') ht hmem
  · have : ∃ q, c.graph.Edge q n ∧ q ≠ l := by
      refine Classical.byContradiction (fun hn => hs (fun q hq => ?_))
      exact Classical.byContradiction (fun hne => hn ⟨q, hq, hne⟩)
    obtain ⟨q, hq, hql⟩ := this
    obtain ⟨h1, h2⟩ := kept_enter (I := I) (src := e) (e := e) ((parents_iff P.graph l n).2 he)
      ((parents_iff P.graph q n).2 hq) (Ne.symm hql) hgp
    rw [h1]
    have := execAll_phis (I := I) (js := []) (s := (enter I e l phis e, w)) h2
    simpa [execAll] using this

theorem simp_run (P : SsaProgram c) (s : Simplified c c') (e : Nat → V) (w : W) : ∀ m,
    (Opt.run I c' e w m).at_ = (Opt.run I c e w m).at_ ∧
    (Opt.run I c' e w m).world = (Opt.run I c e w m).world ∧
    ∀ l phis rest, (Opt.run I c e w m).at_ = some l → blockOf c l = phis ++ rest → (∀ i ∈ phis, i.t = .phi) →
      (∀ i ∈ rest, i.t ≠ .phi) →
      execAll I (phis.map (simpInst (c.graph.parents l))) ((Opt.run I c' e w m).env, (Opt.run I c e w m).world) =
        ((Opt.run I c e w m).env, (Opt.run I c e w m).world)
  | 0 => by
    refine ⟨by simp [Opt.run, s.2.1], rfl, ?_⟩
    intro l phis rest hat hb hp hr
    simp only [Opt.run, Option.some.injEq] at hat
    subst hat
    have : phis = [] := by
      cases phis with
      | nil => rfl
      | cons i is => exact absurd (hp i (by simp)) (P.entry 0 i (by simp [instAt, hb]))
    subst this
    rfl
  | m + 1 => by
    obtain ⟨h1, h2, h3⟩ := simp_run P s e w m
    have hx : Opt.run I c e w (m + 1) = step I c (Opt.run I c e w m) := rfl
    have hx' : Opt.run I c' e w (m + 1) = step I c' (Opt.run I c' e w m) := rfl
    rw [hx, hx']
    generalize Opt.run I c e w m = x at *
    generalize Opt.run I c' e w m = x' at *
    cases hat : x.at_ with
    | none =>
      rw [hat] at h1
      simp only [step, hat, h1]
      exact ⟨trivial, h2, by intros; contradiction⟩
    | some l =>
      rw [hat] at h1
      obtain ⟨phis, rest, hb, hp, hr⟩ := simp_split P l
      have h4 := h3 l phis rest hat hb hp hr
      have hrest : rest.map (simpInst (c.graph.parents l)) = rest := by
        conv => rhs; rw [← List.map_id rest]
        exact List.map_congr_left (fun i hi => simpInst_other (hr i hi))
      have hE : execAll I (blockOf c' l) (x'.env, x'.world) = execAll I (blockOf c l) (x.env, x.world) := by
        rw [simp_blockOf s, hb, List.map_append, hrest, execAll_phis hp, h2]
        simp only [execAll, List.foldl_append] at h4 ⊢
        rw [h4]
      simp only [step, hat, h1, hE, simp_next P s]
      generalize execAll I (blockOf c l) (x.env, x.world) = y
      cases hn : next I c l (blockOf c l) y.1 with
      | none => exact ⟨rfl, rfl, by intros; contradiction⟩
      | some n =>
        refine ⟨rfl, rfl, ?_⟩
        intro l' phis' rest' e1 e2 e3 e4
        simp only [Option.some.injEq] at e1
        subst e1
        exact simp_enter P s (next_edge P.wf hn) e2 e3 e4 y.1 y.2

end

end Verif.Ssa
