import Verif.Lin.Segs
/-!
# The graph built from code, and its runs
-/

namespace Verif.Lin

open Verif.Il Verif.Graph Verif.Opt Verif.Ssa

/-! ## Connecting -/

theorem connects_children {p : Nat} : ∀ {ls : List Nat} {g : Graph} {a b : Nat},
    (ls.foldl (fun g l => g.connect p l) g).Edge a b ↔ g.Edge a b ∨ (a = p ∧ b ∈ ls)
  | [], g, a, b => by simp
  | l :: ls, g, a, b => by
    rw [List.foldl_cons, connects_children (ls := ls)]
    simp only [Graph.Edge, children_connect]
    split
    · subst_vars
      simp only [mem_setInsert, true_and, List.mem_cons, or_assoc]
    · rename_i h
      simp [h]

theorem connects_labels {p : Nat} : ∀ {ls : List Nat} {g : Graph} {k : Nat},
    k ∈ (ls.foldl (fun g l => g.connect p l) g).labels ↔ k ∈ g.labels ∨ (ls ≠ [] ∧ k = p) ∨ k ∈ ls
  | [], g, k => by simp
  | l :: ls, g, k => by
    rw [List.foldl_cons, connects_labels (ls := ls), mem_labels_connect]
    by_cases h : k = p
    · simp [h]
    · simp [h, or_assoc]

theorem connects_run {p : Nat} : ∀ {ls : List Nat} {g : Graph}, (∃ ops, Graph.run ops = some g) →
    ∃ ops, Graph.run ops = some (ls.foldl (fun g l => g.connect p l) g)
  | [], _, h => h
  | l :: ls, g, ⟨ops, h⟩ => by
    rw [List.foldl_cons]
    exact connects_run ⟨_, run_snoc h (op := .connect p l) rfl⟩

theorem link_edge : ∀ {S : List Seg} {g : Graph} {a b : Nat},
    (S.foldl link g).Edge a b ↔ g.Edge a b ∨ ∃ s ∈ S, s.lab = a ∧ b ∈ s.succs
  | [], g, a, b => by simp
  | s :: S, g, a, b => by
    rw [List.foldl_cons, link_edge (S := S), link, connects_children]
    simp only [List.mem_cons, exists_eq_or_imp, or_assoc, eq_comm (a := a)]

theorem link_labels : ∀ {S : List Seg} {g : Graph} {k : Nat},
    k ∈ (S.foldl link g).labels ↔ k ∈ g.labels ∨ ∃ s ∈ S, (s.succs ≠ [] ∧ k = s.lab) ∨ k ∈ s.succs
  | [], g, k => by simp
  | s :: S, g, k => by
    rw [List.foldl_cons, link_labels (S := S), link, connects_labels]
    simp only [List.mem_cons, exists_eq_or_imp, or_assoc]

theorem link_run : ∀ {S : List Seg} {g : Graph}, (∃ ops, Graph.run ops = some g) →
    ∃ ops, Graph.run ops = some (S.foldl link g)
  | [], _, h => h
  | s :: S, g, h => by
    rw [List.foldl_cons]
    exact link_run (connects_run h)

/-! ## More about segments -/

theorem segs_label : ∀ {code : List Inst} {pos cur n : Nat} {body : List Inst} {k : Nat} {i : Inst},
    code[k]? = some i → i.t = .label →
    ∃ s ∈ segs pos cur n body code, s.lab = i.labels.headD 0 ∧ s.start = pos + body.length + k + 1
  | [], _, _, _, _, _, _, h, _ => by simp at h
  | j :: is, pos, cur, n, body, k, i, h, ht => by
    cases k with
    | zero =>
      simp only [List.getElem?_cons_zero, Option.some.injEq] at h
      subst h
      obtain ⟨s, r, h1, h2, h3⟩ := segs_ne (code := is) (pos := pos + body.length + 1) (cur := j.labels.headD 0) (n := n) (body := [])
      refine ⟨s, ?_, h2, by omega⟩
      simp only [segs, ht, h1]
      simp
    | succ k =>
      simp only [List.getElem?_cons_succ] at h
      simp only [segs]
      split
      · obtain ⟨s, h1, h2, h3⟩ := segs_label (pos := pos + body.length + 1) (cur := j.labels.headD 0) (n := n) (body := []) h ht
        exact ⟨s, List.mem_cons_of_mem _ h1, h2, by simp at h3; omega⟩
      · obtain ⟨s, h1, h2, h3⟩ := segs_label (pos := pos + body.length + 1) (cur := n) (n := n + 1) (body := []) h ht
        exact ⟨s, List.mem_cons_of_mem _ h1, h2, by simp at h3; omega⟩
      · obtain ⟨s, h1, h2, h3⟩ := segs_label (pos := pos + body.length + 1) (cur := n) (n := n + 1) (body := []) h ht
        exact ⟨s, List.mem_cons_of_mem _ h1, h2, by simp at h3; omega⟩
      · obtain ⟨s, h1, h2, h3⟩ := segs_label (pos := pos) (cur := cur) (n := n) (body := body ++ [j]) h ht
        exact ⟨s, h1, h2, by simp at h3; omega⟩

theorem linked_next : ∀ {S : List Seg} {s : Seg} {m : Nat}, Linked S → s ∈ S → s.next = some m →
    ∃ s' ∈ S, s'.lab = m ∧ s'.start = s.start + s.body.length + 1
  | [], _, _, _, h, _ => by simp at h
  | t :: S, s, m, hl, h, hn => by
    rcases List.mem_cons.1 h with rfl | h
    · cases S with
      | nil =>
        have := hl.1
        simp only at this
        rw [Seg.next, this] at hn
        simp at hn
      | cons s' S =>
        obtain ⟨h1, h2⟩ := hl.1
        rw [h1] at hn
        exact ⟨s', by simp, by simpa using hn, h2⟩
    · obtain ⟨s', h1, h2⟩ := linked_next hl.2 h hn
      exact ⟨s', List.mem_cons_of_mem _ h1, h2⟩

theorem linked_prev : ∀ {S : List Seg} {t s : Seg}, Linked (t :: S) → s ∈ S →
    ∃ p ∈ t :: S, p.next = some s.lab ∧ s.start = p.start + p.body.length + 1
  | [], _, _, _, h => by simp at h
  | s' :: S, t, s, hl, h => by
    rcases List.mem_cons.1 h with rfl | h
    · exact ⟨t, by simp, hl.1.1, hl.1.2⟩
    · obtain ⟨p, h1, h2⟩ := linked_prev hl.2 h
      exact ⟨p, List.mem_cons_of_mem _ h1, h2⟩

theorem segs_fresh : ∀ {code : List Inst} {pos cur n : Nat} {body : List Inst} {s : Seg} {i : Inst} {m : Nat},
    s ∈ segs pos cur n body code → s.term = .jump i m → n ≤ m
  | [], _, _, _, _, s, i, m, h, ht => by
    simp only [segs, List.mem_singleton] at h
    subst h
    cases ht
  | j :: is, pos, cur, n, body, s, i, m, h, ht => by
    simp only [segs] at h
    split at h
    · rcases List.mem_cons.1 h with rfl | h
      · cases ht
      · exact segs_fresh h ht
    · rcases List.mem_cons.1 h with rfl | h
      · cases ht; exact Nat.le_refl _
      · have := segs_fresh h ht; omega
    · rcases List.mem_cons.1 h with rfl | h
      · cases ht; exact Nat.le_refl _
      · have := segs_fresh h ht; omega
    · exact segs_fresh h ht

/-! ## The graph before unreachable blocks are removed -/

section
variable {code : List Inst} {n : Nat}

abbrev theSegs (code : List Inst) (n : Nat) : List Seg := segs 0 0 n [] code

def cfg0 (code : List Inst) (n : Nat) : Cfg where
  graph := (theSegs code n).foldl link Graph.new
  bblocks := (theSegs code n).map fixed
  entry := 0

theorem lies_all {s : Seg} (h : s ∈ theSegs code n) : Lies code s :=
  segs_lies (pre := []) rfl rfl (by simp) s h

theorem from_ok (ok : CodeOk code n) :
    fromBBlocks ((theSegs code n).map raw) ((theSegs code n).map (·.lab)) = some (cfg0 code n) := by
  have := link_fold (whole := code) (B := theSegs code n) (A := []) (g := Graph.new) (by simpa using segs_nodup ok)
    segs_linked (fun s hs => lies_all hs) (fun i hi ht => (ok.goto i hi ht).imp fun l h => h.1)
  simp only [List.nil_append, List.map_nil, List.length_nil] at this
  simp only [fromBBlocks, List.length_map, List.range_eq_range', this, Option.bind_eq_bind, Option.bind_some]
  rfl

theorem edge0 {a b : Nat} : (cfg0 code n).graph.Edge a b ↔ ∃ s ∈ theSegs code n, s.lab = a ∧ b ∈ s.succs := by
  rw [cfg0, link_edge]
  simp [Graph.Edge, Graph.children, Graph.get, Graph.new]

theorem labels0 {k : Nat} : k ∈ (cfg0 code n).graph.labels ↔
    ∃ s ∈ theSegs code n, (s.succs ≠ [] ∧ k = s.lab) ∨ k ∈ s.succs := by
  rw [cfg0, link_labels]
  simp [Graph.labels, Graph.new]

theorem block0 (ok : CodeOk code n) {s : Seg} (h : s ∈ theSegs code n) :
    Cfg.block (cfg0 code n) s.lab = some s.insts := by
  have hn : ((cfg0 code n).bblocks.map (·.1)).Nodup := by
    have := segs_nodup ok
    simpa [cfg0, fixed, Function.comp_def] using this
  exact (mem_lookup hn).1 (List.mem_map.2 ⟨s, h, rfl⟩)

theorem blockOf0 (ok : CodeOk code n) {s : Seg} (h : s ∈ theSegs code n) :
    blockOf (cfg0 code n) s.lab = s.insts := by
  rw [blockOf, block0 ok h]; rfl

theorem seg_of_block {l : Nat} (h : (Cfg.block (cfg0 code n) l).isSome) : ∃ s ∈ theSegs code n, s.lab = l := by
  have := lookup_isSome_iff.1 h
  simpa [cfg0, fixed] using this

theorem seg_of_inst {l k : Nat} {i : Inst} (h : instAt (cfg0 code n) l k = some i) :
    ∃ s ∈ theSegs code n, s.lab = l := by
  refine seg_of_block ?_
  cases hb : Cfg.block (cfg0 code n) l with
  | none => simp [instAt, blockOf, hb] at h
  | some _ => rfl

theorem map_inj {f : Seg → Nat} : ∀ {S : List Seg}, (S.map f).Nodup → ∀ {s s' : Seg}, s ∈ S → s' ∈ S → f s = f s' → s = s'
  | [], _, _, _, h, _, _ => by simp at h
  | t :: S, hn, s, s', h, h', e => by
    rw [List.map_cons, List.nodup_cons] at hn
    rcases List.mem_cons.1 h with rfl | h1 <;> rcases List.mem_cons.1 h' with rfl | h2
    · rfl
    · exact absurd (List.mem_map.2 ⟨s', h2, e.symm⟩) hn.1
    · exact absurd (List.mem_map.2 ⟨s, h1, e⟩) hn.1
    · exact map_inj hn.2 h1 h2 e

theorem seg_unique (ok : CodeOk code n) {s s' : Seg} (h : s ∈ theSegs code n) (h' : s' ∈ theSegs code n)
    (e : s.lab = s'.lab) : s = s' := by
  exact map_inj (segs_nodup ok) h h' e

theorem declared_bound (ok : CodeOk code n) {l : Nat} (hl : l ∈ declared code) : 0 < l ∧ l < n := by
  simp only [declared, List.mem_flatMap, List.mem_filter, beq_iff_eq] at hl
  obtain ⟨i, ⟨hi, ht⟩, hl⟩ := hl
  obtain ⟨l', e, h1, h2⟩ := ok.label i hi ht
  rw [e] at hl
  simp only [List.mem_singleton] at hl
  exact ⟨by omega, by omega⟩

/-- A declared label is in front of a segment. -/
theorem declared_seg (ok : CodeOk code n) {l : Nat} (hl : l ∈ declared code) :
    ∃ s ∈ theSegs code n, s.lab = l ∧ ∃ p i, placeOf code l = some p ∧ code[p]? = some i ∧ i.t = .label ∧ s.start = p + 1 := by
  have hex : ∃ x ∈ code, (x.t == .label && x.labels == [l]) = true := by
    simp only [declared, List.mem_flatMap, List.mem_filter, beq_iff_eq] at hl
    obtain ⟨i, ⟨hi, ht⟩, hl⟩ := hl
    obtain ⟨l', e, -⟩ := ok.label i hi ht
    rw [e] at hl
    simp only [List.mem_singleton] at hl
    exact ⟨i, hi, by simp [ht, e, hl]⟩
  cases hp : placeOf code l with
  | none =>
    obtain ⟨x, hx, h⟩ := hex
    rw [placeOf, List.findIdx?_eq_none_iff] at hp
    rw [hp x hx] at h
    cases h
  | some p =>
    have hp' := hp
    rw [placeOf, List.findIdx?_eq_some_iff_getElem] at hp'
    obtain ⟨h1, h2, -⟩ := hp'
    simp only [Bool.and_eq_true, beq_iff_eq] at h2
    have h3 : code[p]? = some code[p] := List.getElem?_eq_getElem h1
    obtain ⟨s, h4, h5, h6⟩ := segs_label (pos := 0) (cur := 0) (n := n) (body := []) h3 h2.1
    refine ⟨s, h4, ?_, p, code[p], rfl, h3, h2.1, by simpa using h6⟩
    rw [h5, h2.2]; rfl

/-- Where control goes there is a segment. -/
theorem succ_seg (ok : CodeOk code n) {s : Seg} (hs : s ∈ theSegs code n) {m : Nat} (hm : m ∈ s.succs) :
    m ≠ 0 ∧ ∃ s' ∈ theSegs code n, s'.lab = m := by
  have lies := lies_all hs
  have hdecl : ∀ {l}, l ∈ declared code → l ≠ 0 ∧ ∃ s' ∈ theSegs code n, s'.lab = l := by
    intro l hl
    obtain ⟨s', h1, h2, -⟩ := declared_seg ok hl
    exact ⟨by have := (declared_bound ok hl).1; omega, s', h1, h2⟩
  simp only [Seg.succs] at hm
  cases ht : s.term with
  | halt => rw [ht] at hm; simp at hm
  | fall l =>
    rw [ht] at hm
    simp only [List.mem_singleton] at hm
    subst hm
    obtain ⟨i, h1, h2, h3⟩ := lies.fall m ht
    obtain ⟨l, e, h4, -⟩ := ok.label i (List.mem_of_getElem? h1) h2
    obtain ⟨s', h5, h6, -⟩ := linked_next (m := m) segs_linked hs (by simp [Seg.next, ht])
    refine ⟨?_, s', h5, h6⟩
    rw [e] at h3
    simp at h3
    omega
  | jump i next =>
    rw [ht] at hm
    obtain ⟨h1, h2⟩ := lies.jump i next ht
    have hi := List.mem_of_getElem? h1
    simp only at hm
    split at hm
    · rename_i hg
      obtain ⟨l, e, hl⟩ := ok.goto i hi hg
      simp only [e, List.headD_cons, List.mem_singleton] at hm
      exact hm ▸ hdecl hl
    · rename_i hg
      obtain ⟨l, hl, rfl⟩ := List.mem_map.1 hm
      have hb : i.t = .condGoto := by rcases h2 with h | h; exact absurd h hg; exact h
      by_cases hd : l = dummyLabel
      · simp only [resolve, hd, if_true]
        obtain ⟨s', h5, h6, -⟩ := linked_next (m := next) segs_linked hs (by simp [Seg.next, ht])
        refine ⟨?_, s', h5, h6⟩
        have := segs_fresh hs ht
        have := ok.counter.1
        omega
      · simp only [resolve, hd, if_false]
        rcases ok.branch i hi hb l hl with h | h
        · exact absurd h hd
        · exact hdecl h

/-- The instructions of a block. -/
theorem inst0 {s : Seg} (hs : s ∈ theSegs code n) {k : Nat} {i : Inst}
    (h : s.insts[k]? = some i) :
    (k < s.body.length ∧ i ∈ code ∧ Plain i) ∨
    (k = s.body.length ∧ s.insts.length = k + 1 ∧ ∃ i0 ∈ code, ∃ nx, s.term = .jump i0 nx ∧ i0.t = .condGoto ∧
      i = { i0 with labels := i0.labels.map (resolve nx) }) := by
  have lies := lies_all hs
  by_cases hk : k < s.body.length
  · left
    rw [Seg.insts, List.getElem?_append_left hk] at h
    exact ⟨hk, List.mem_of_getElem? ((lies.body k hk).trans h), lies.plain i (List.mem_of_getElem? h)⟩
  · right
    rw [Seg.insts, List.getElem?_append_right (by omega)] at h
    cases ht : s.term with
    | halt => rw [ht] at h; simp at h
    | fall l => rw [ht] at h; simp at h
    | jump i0 nx =>
      obtain ⟨h1, h2⟩ := lies.jump i0 nx ht
      rw [ht] at h
      simp only at h
      split at h
      · simp at h
      · rename_i hg
        have hb : i0.t = .condGoto := by rcases h2 with h | h; exact absurd h hg; exact h
        cases hk' : k - s.body.length with
        | zero =>
          rw [hk'] at h
          simp only [List.getElem?_cons_zero, Option.some.injEq] at h
          refine ⟨by omega, ?_, i0, List.mem_of_getElem? h1, nx, rfl, hb, h.symm⟩
          simp only [Seg.insts, ht, hg, if_false, List.length_append, List.length_singleton]
          omega
        | succ m => rw [hk'] at h; simp at h

theorem instAt0 (ok : CodeOk code n) {l k : Nat} {i : Inst} (h : instAt (cfg0 code n) l k = some i) :
    ∃ s ∈ theSegs code n, s.lab = l ∧ s.insts[k]? = some i := by
  obtain ⟨s, hs, rfl⟩ := seg_of_inst h
  rw [instAt, blockOf0 ok hs] at h
  exact ⟨s, hs, rfl, h⟩

theorem branch_succs {s : Seg} {i0 : Inst} {nx : Nat} (ht : s.term = .jump i0 nx) (hb : i0.t = .condGoto) :
    s.succs = i0.labels.map (resolve nx) := by
  simp [Seg.succs, ht, hb]

theorem sound0 (ok : CodeOk code n) : Sound (cfg0 code n) where
  graph := link_run ⟨[], rfl⟩
  wf := by
    refine ⟨?_, ?_, ?_, ?_, ?_, ?_, ?_, ?_⟩
    · have := segs_nodup ok
      simpa [cfg0, fixed, Function.comp_def] using this
    · obtain ⟨s, r, h1, h2, -⟩ := segs_ne (code := code) (pos := 0) (cur := 0) (n := n) (body := [])
      have hs : s ∈ theSegs code n := by rw [theSegs, h1]; simp
      have := block0 ok hs
      rw [h2] at this
      simp [cfg0] at this ⊢
      rw [this]; rfl
    · intro a b h
      obtain ⟨s, hs, -, hb⟩ := edge0.1 h
      obtain ⟨-, s', hs', rfl⟩ := succ_seg ok hs hb
      rw [block0 ok hs']; rfl
    · intro l k i h
      obtain ⟨s, hs, -, h⟩ := instAt0 ok h
      rcases inst0 hs h with ⟨-, hi, hp⟩ | ⟨-, -, i0, hi, nx, -, hb, rfl⟩
      · exact ok.shape i hi hp.1 hp.2.1
      · have := ok.shape i0 hi (by simp [hb]) (by simp [hb])
        simp only [Shape, hb] at this ⊢
        obtain ⟨h1, h2, t, f, h3⟩ := this
        exact ⟨h1, h2, by simp [h3]⟩
    · intro l k i h ht
      obtain ⟨s, hs, rfl, h0⟩ := instAt0 ok h
      rw [blockOf0 ok hs]
      rcases inst0 hs h0 with ⟨-, -, hp⟩ | ⟨-, h1, -⟩
      · exact absurd ht hp.2.2
      · exact h1.symm
    · intro l k i h ht x hx
      obtain ⟨s, hs, rfl, h0⟩ := instAt0 ok h
      rcases inst0 hs h0 with ⟨-, -, hp⟩ | ⟨-, -, i0, hi, nx, h1, hb, rfl⟩
      · exact absurd ht hp.2.2
      · exact edge0.2 ⟨s, hs, rfl, by rw [branch_succs h1 hb]; exact hx⟩
    · intro l k j i i' h ht
      obtain ⟨s, hs, -, h⟩ := instAt0 ok h
      rcases inst0 hs h with ⟨-, hi, -⟩ | ⟨-, -, i0, hi, nx, -, hb, rfl⟩
      · exact absurd ht (ok.noPhi i hi)
      · exact absurd ht (by simp [hb])
    · intro l k i h ht
      obtain ⟨s, hs, -, h⟩ := instAt0 ok h
      rcases inst0 hs h with ⟨-, hi, -⟩ | ⟨-, -, i0, hi, nx, -, hb, rfl⟩
      · exact absurd ht (ok.noPhi i hi)
      · exact absurd ht (by simp [hb])
  nodes := by
    intro l h
    obtain ⟨s, hs, h⟩ := labels0.1 (contains_iff.1 h)
    rcases h with ⟨-, rfl⟩ | h
    · rw [block0 ok hs]; rfl
    · obtain ⟨-, s', hs', rfl⟩ := succ_seg ok hs h
      rw [block0 ok hs']; rfl
  taken := by
    intro l k i h ht x hx
    obtain ⟨s, hs, rfl, h0⟩ := instAt0 ok h
    rcases inst0 hs h0 with ⟨-, -, hp⟩ | ⟨-, -, i0, hi, nx, h1, hb, rfl⟩
    · exact absurd ht hp.2.2
    · obtain ⟨s', hs', e, hx⟩ := edge0.1 hx
      rw [seg_unique ok hs' hs e, branch_succs h1 hb] at hx
      exact hx

/-- A segment without edges is the only one. -/
theorem isolated (ok : CodeOk code n) {s : Seg} (hs : s ∈ theSegs code n)
    (h : s.lab ∉ (cfg0 code n).graph.labels) : s.lab = 0 := by
  have hno : ∀ s' ∈ theSegs code n, s.lab ∉ s'.succs := fun s' hs' hm => h (labels0.2 ⟨s', hs', .inr hm⟩)
  have hown : s.succs = [] := Classical.byContradiction fun hne => h (labels0.2 ⟨s, hs, .inl ⟨hne, rfl⟩⟩)
  obtain ⟨t, r, h1, h2, h3⟩ := segs_ne (code := code) (pos := 0) (cur := 0) (n := n) (body := [])
  have hS : theSegs code n = t :: r := h1
  rw [hS] at hs
  rcases List.mem_cons.1 hs with rfl | hs
  · exact h2
  · exfalso
    have hlk : Linked (t :: r) := by rw [← h1]; exact segs_linked
    obtain ⟨p, hp, hn, hst⟩ := linked_prev hlk hs
    rw [← hS] at hp
    have hs' : s ∈ theSegs code n := by rw [hS]; exact List.mem_cons_of_mem _ hs
    have lp := lies_all hp
    have ls := lies_all hs'
    have hhalt : s.term = .halt := by
      cases ht : s.term with
      | halt => rfl
      | fall l => simp [Seg.succs, ht] at hown
      | jump i nx =>
        simp only [Seg.succs, ht] at hown
        obtain ⟨e1, e2⟩ := ls.jump i nx ht
        split at hown
        · simp at hown
        · rename_i hg
          have hb : i.t = .condGoto := by rcases e2 with h | h; exact absurd h hg; exact h
          have := ok.shape i (List.mem_of_getElem? e1) (by simp [hb]) (by simp [hb])
          simp only [Shape, hb] at this
          obtain ⟨-, -, a, b, e⟩ := this
          rw [e] at hown
          simp at hown
    cases ht : p.term with
    | halt => simp [Seg.next, ht] at hn
    | fall l =>
      simp only [Seg.next, ht, Option.some.injEq] at hn
      exact hno p hp (by simp [Seg.succs, ht, hn])
    | jump i nx =>
      simp only [Seg.next, ht, Option.some.injEq] at hn
      subst hn
      obtain ⟨e1, e2⟩ := lp.jump i _ ht
      obtain ⟨hlt, e1'⟩ := List.getElem?_eq_some_iff.1 e1
      have hcode : code = code.take (p.start + p.body.length) ++ i :: code.drop (p.start + p.body.length + 1) := by
        rw [← e1', List.getElem_cons_drop, List.take_append_drop]
      have htail := ok.tail _ _ _ hcode (by
        intro j hj
        obtain ⟨k, hk⟩ := List.getElem?_of_mem hj
        rw [List.getElem?_drop, ← hst] at hk
        have hlen := ls.halt hhalt
        have hkl : k < s.body.length := by
          have := (List.getElem?_eq_some_iff.1 hk).1
          omega
        rw [ls.body k hkl] at hk
        exact ls.plain j (List.mem_of_getElem? hk))
      have hb : i.t = .condGoto := by rcases e2 with h | h; exact absurd h htail.1; exact h
      refine hno p hp ?_
      rw [branch_succs ht hb]
      exact List.mem_map.2 ⟨fallThrough, htail.2 hb, by simp [resolve, fallThrough, dummyLabel]⟩

end

end Verif.Lin
