import Verif.Opt.DvnRun
/-!
# Leaving SSA
-/

namespace Verif.Opt

open Verif.Il Verif.Graph

/-! ## Collecting the copies -/

def isPhi (i : Inst) : Bool := i.t == .phi

theorem isPhi_iff {i : Inst} : isPhi i = true ↔ i.t = .phi := by simp [isPhi]

/-- Target, predecessor and value of every entry of the phis of a block, in the order of the code. -/
def entries (is : List Inst) : List (Nat × Nat × Arg) :=
  (is.takeWhile isPhi).flatMap (fun i => (i.labels.zip i.args).map (fun e => (i.tgts.headD 0, e.1, e.2)))

/-- The copies for one predecessor. -/
def copiesFor (p : Nat) (es : List (Nat × Nat × Arg)) : List Inst :=
  es.filterMap (fun e => if e.2.1 = p then some (Inst.varAssign e.1 e.2.2) else none)

theorem copiesFor_append (p : Nat) (es es' : List (Nat × Nat × Arg)) :
    copiesFor p (es ++ es') = copiesFor p es ++ copiesFor p es' := List.filterMap_append

theorem copiesFor_nil {p : Nat} {es : List (Nat × Nat × Arg)} (h : ¬ ∃ e ∈ es, e.2.1 = p) :
    copiesFor p es = [] := by
  refine List.filterMap_eq_nil_iff.2 ?_
  intro e he
  exact if_neg (fun hh => h ⟨e, he, hh⟩)

structure Collected (l n : Nat) (es : List (Nat × Nat × Arg)) (s : Nat × List NewBblock) : Prop where
  num : s.1 = n + s.2.length
  labels : s.2.map (·.label) = List.range' n s.2.length
  child : ∀ b ∈ s.2, b.child = l
  insts : ∀ b ∈ s.2, b.insts = copiesFor b.parent es
  parents : (s.2.map (·.parent)).Nodup
  mem : ∀ p, p ∈ s.2.map (·.parent) ↔ ∃ e ∈ es, e.2.1 = p

theorem push_ok {l n : Nat} {es : List (Nat × Nat × Arg)} {s : Nat × List NewBblock} (h : Collected l n es s)
    (t : Nat) (e : Nat × Arg) : Collected l n (es ++ [(t, e.1, e.2)]) (pushCopy l t s e) := by
  obtain ⟨cl, M⟩ := s
  obtain ⟨p, a⟩ := e
  have hone : ∀ q, copiesFor q [(t, p, a)] = if p = q then [Inst.varAssign t a] else [] := by
    intro q
    by_cases hq : p = q <;> simp [copiesFor, hq]
  simp only [pushCopy]
  split
  · rename_i hany
    simp only [List.any_eq_true, beq_iff_eq] at hany
    obtain ⟨b0, hb0, hp0⟩ := hany
    have hmap : ∀ {β : Type} (f : NewBblock → β), (∀ b x, f { b with insts := x } = f b) →
        (M.map (fun b => if b.parent = p then { b with insts := b.insts ++ [Inst.varAssign t a] } else b)).map f
          = M.map f := by
      intro β f hf
      rw [List.map_map]
      refine List.map_congr_left ?_
      intro b _
      simp only [Function.comp]
      split
      · exact hf _ _
      · rfl
    refine ⟨by simpa using h.num, ?_, ?_, ?_, ?_, ?_⟩
    · simpa [hmap (·.label) (fun _ _ => rfl)] using h.labels
    · intro b hb
      simp only [List.mem_map] at hb
      obtain ⟨b', hb', rfl⟩ := hb
      split <;> exact h.child b' hb'
    · intro b hb
      simp only [List.mem_map] at hb
      obtain ⟨b', hb', rfl⟩ := hb
      have := h.insts b' hb'
      split
      · rename_i hbp
        simp [copiesFor_append, hone, this, hbp]
      · rename_i hbp
        rw [copiesFor_append, hone, if_neg (fun hh => hbp hh.symm), List.append_nil, this]
    · simpa [hmap (·.parent) (fun _ _ => rfl)] using h.parents
    · intro q
      have := h.mem q
      simp only [hmap (·.parent) (fun _ _ => rfl)]
      rw [this]
      constructor
      · rintro ⟨e, he, rfl⟩
        exact ⟨e, List.mem_append_left _ he, rfl⟩
      · rintro ⟨e, he, rfl⟩
        rcases List.mem_append.1 he with he | he
        · exact ⟨e, he, rfl⟩
        · obtain rfl := List.mem_singleton.1 he
          exact (h.mem p).1 (List.mem_map.2 ⟨b0, hb0, hp0⟩)
  · rename_i hany
    have hno : p ∉ M.map (·.parent) := by
      intro hh
      obtain ⟨b, hb, hbp⟩ := List.mem_map.1 hh
      exact hany (List.any_eq_true.2 ⟨b, hb, by simpa using hbp⟩)
    have hno' : ¬ ∃ e ∈ es, e.2.1 = p := fun hh => hno ((h.mem p).2 hh)
    have hnum : cl = n + M.length := h.num
    refine ⟨?_, ?_, ?_, ?_, ?_, ?_⟩
    · simp only [List.length_append, List.length_singleton]
      omega
    · have := h.labels
      simp only at this
      simp [this, List.range'_concat, hnum]
    · intro b hb
      rcases List.mem_append.1 hb with hb | hb
      · exact h.child b hb
      · obtain rfl := List.mem_singleton.1 hb
        rfl
    · intro b hb
      rcases List.mem_append.1 hb with hb | hb
      · have hne : p ≠ b.parent := fun hh => hno (List.mem_map.2 ⟨b, hb, hh.symm⟩)
        rw [copiesFor_append, hone, if_neg hne, List.append_nil]
        exact h.insts b hb
      · obtain rfl := List.mem_singleton.1 hb
        simp [copiesFor_append, hone, copiesFor_nil hno']
    · simp only [List.map_append, List.map_cons, List.map_nil]
      rw [List.nodup_append]
      refine ⟨h.parents, by simp, ?_⟩
      intro x hx y hy hxy
      obtain rfl := List.mem_singleton.1 hy
      exact hno (hxy ▸ hx)
    · intro q
      have := h.mem q
      simp only at this
      simp only [List.map_append, List.map_cons, List.map_nil, List.mem_append, List.mem_singleton, this]
      constructor
      · rintro (⟨e, he, rfl⟩ | rfl)
        · exact ⟨e, Or.inl he, rfl⟩
        · exact ⟨_, Or.inr rfl, rfl⟩
      · rintro ⟨e, he | rfl, rfl⟩
        · exact Or.inl ⟨e, he, rfl⟩
        · exact Or.inr rfl

theorem pushAll_ok {l n : Nat} (t : Nat) : ∀ (xs : List (Nat × Arg)) (es : List (Nat × Nat × Arg))
    (s : Nat × List NewBblock), Collected l n es s →
    Collected l n (es ++ xs.map (fun e => (t, e.1, e.2))) (xs.foldl (pushCopy l t) s) := by
  intro xs
  induction xs with
  | nil => intro es s h; simpa using h
  | cons x xs ih =>
    intro es s h
    have := ih _ _ (push_ok h t x)
    simpa using this

theorem takePhis_ok {l n : Nat} : ∀ (is : List Inst) (es : List (Nat × Nat × Arg)) (s : Nat × List NewBblock),
    (∀ i ∈ is, i.t = .phi → ∃ t, i.tgts = [t]) → Collected l n es s →
    ∃ s', takePhis l is s = some (is.dropWhile isPhi, s') ∧ Collected l n (es ++ entries is) s' := by
  intro is
  induction is with
  | nil => intro es s _ h; exact ⟨s, rfl, by simpa [entries] using h⟩
  | cons i is ih =>
    intro es s hsh h
    by_cases hp : i.t = .phi
    · obtain ⟨t, ht⟩ := hsh i List.mem_cons_self hp
      obtain ⟨s', e1, e2⟩ := ih _ _ (fun j hj => hsh j (List.mem_cons_of_mem _ hj))
        (pushAll_ok t (i.labels.zip i.args) es s h)
      refine ⟨s', ?_, ?_⟩
      · rw [takePhis]
        simp only [hp, if_true, ht, List.getElem?_cons_zero, Option.bind_eq_bind, Option.bind_some, e1]
        rw [List.dropWhile_cons_of_pos (isPhi_iff.2 hp)]
      · have : entries (i :: is) = (i.labels.zip i.args).map (fun e => (t, e.1, e.2)) ++ entries is := by
          simp [entries, List.takeWhile_cons, isPhi_iff.2 hp, ht]
        rw [this, ← List.append_assoc]
        exact e2
    · refine ⟨s, ?_, ?_⟩
      · rw [takePhis, if_neg hp, List.dropWhile_cons_of_neg (fun hh => hp (isPhi_iff.1 hh))]
      · have : entries (i :: is) = [] := by
          simp [entries, List.takeWhile_cons, isPhi, hp]
        rw [this, List.append_nil]
        exact h

/-- What the first loop has produced after the blocks `ls`. -/
structure Taken (c0 : Cfg) (n : Nat) (ls : List Nat) (c : Cfg) (s : Nat × List NewBblock) : Prop where
  graph : c.graph = c0.graph
  entry : c.entry = c0.entry
  keys : c.bblocks.map (·.1) = c0.bblocks.map (·.1)
  block : ∀ l, Cfg.block c l =
    if l ∈ ls then (Cfg.block c0 l).map (fun is => is.dropWhile isPhi) else Cfg.block c0 l
  num : s.1 = n + s.2.length
  labels : s.2.map (·.label) = List.range' n s.2.length
  child : ∀ b ∈ s.2, b.child ∈ ls
  insts : ∀ b ∈ s.2, b.insts = copiesFor b.parent (entries (blockOf c0 b.child))
  source : ∀ b ∈ s.2, ∃ e ∈ entries (blockOf c0 b.child), e.2.1 = b.parent
  all : ∀ l ∈ ls, ∀ p, (∃ e ∈ entries (blockOf c0 l), e.2.1 = p) → ∃ b ∈ s.2, b.parent = p ∧ b.child = l
  uniq : ∀ b ∈ s.2, ∀ b' ∈ s.2, b.parent = b'.parent → b.child = b'.child → b = b'

theorem eq_of_nodup_map {α β : Type} {f : α → β} : ∀ {xs : List α}, (xs.map f).Nodup → ∀ a ∈ xs, ∀ b ∈ xs,
    f a = f b → a = b := by
  intro xs
  induction xs with
  | nil => intro _ a ha; cases ha
  | cons x xs ih =>
    intro h a ha b hb hab
    rw [List.map_cons, List.nodup_cons] at h
    rcases List.mem_cons.1 ha with e1 | ha' <;> rcases List.mem_cons.1 hb with e2 | hb'
    · rw [e1, e2]
    · exact absurd (List.mem_map.2 ⟨b, hb', by rw [← hab, e1]⟩) h.1
    · exact absurd (List.mem_map.2 ⟨a, ha', by rw [hab, e2]⟩) h.1
    · exact ih h.2 a ha' b hb' hab

theorem takeAll_ok {c0 : Cfg} {n : Nat} (wf : WellFormed c0) : ∀ (ls : List Nat) (done : List Nat) (c : Cfg)
    (s : Nat × List NewBblock), Taken c0 n done c s → (∀ l ∈ ls, l ∉ done) → ls.Nodup →
    (∀ l ∈ ls, (Cfg.block c0 l).isSome) →
    ∃ c' s', takeAll ls c s = some (c', s') ∧ Taken c0 n (done ++ ls) c' s' := by
  intro ls
  induction ls with
  | nil => intro done c s h _ _ _; exact ⟨c, s, rfl, by simpa using h⟩
  | cons l ls ih =>
    intro done c s h hnew hnd hsome
    have hl : l ∉ done := hnew l List.mem_cons_self
    obtain ⟨is, hb⟩ := Option.isSome_iff_exists.1 (hsome l List.mem_cons_self)
    have hbo : blockOf c0 l = is := by simp [blockOf, hb]
    have hbc : Cfg.block c l = some is := by rw [h.block l, if_neg hl, hb]
    have hsh : ∀ i ∈ is, i.t = .phi → ∃ t, i.tgts = [t] := by
      intro i hi hp
      obtain ⟨k, hk⟩ := List.getElem?_of_mem hi
      have sh := wf.shape l k i (by rw [instAt, hbo]; exact hk)
      simp only [Shape, hp] at sh
      exact sh.1
    obtain ⟨⟨n', new⟩, e1, e2⟩ := takePhis_ok (l := l) (n := s.1) is [] (s.1, []) hsh
      ⟨by simp, by simp, by simp, by simp, by simp, by simp⟩
    rw [List.nil_append] at e2
    have hT : Taken c0 n (done ++ [l]) (setBlock c l (is.dropWhile isPhi)) (n', s.2 ++ new) := by
      have hnum := h.num
      have hnum' : n' = s.1 + new.length := e2.num
      refine ⟨h.graph, h.entry, ?_, ?_, ?_, ?_, ?_, ?_, ?_, ?_, ?_⟩
      · rw [← h.keys]
        simp only [setBlock, List.map_map]
        refine List.map_congr_left ?_
        intro e _
        simp only [Function.comp]
        split <;> rfl
      · intro x
        rw [block_setBlock]
        by_cases hx : x = l
        · subst hx
          simp [hbc, hb]
        · simp [hx, h.block x]
      · simp only [List.length_append]
        omega
      · have h1 := h.labels
        have h2 : new.map (·.label) = List.range' s.1 new.length := e2.labels
        simp only [List.map_append, List.length_append, h1, h2, hnum]
        rw [List.range'_append_1]
      · intro b hb'
        rcases List.mem_append.1 hb' with hb' | hb'
        · exact List.mem_append_left _ (h.child b hb')
        · rw [e2.child b hb']
          exact List.mem_append_right _ (List.mem_singleton_self l)
      · intro b hb'
        rcases List.mem_append.1 hb' with hb' | hb'
        · exact h.insts b hb'
        · rw [e2.child b hb', hbo]
          exact e2.insts b hb'
      · intro b hb'
        rcases List.mem_append.1 hb' with hb' | hb'
        · exact h.source b hb'
        · rw [e2.child b hb', hbo]
          exact (e2.mem b.parent).1 (List.mem_map.2 ⟨b, hb', rfl⟩)
      · intro x hx p hp
        rcases List.mem_append.1 hx with hx | hx
        · obtain ⟨b, g1, g2⟩ := h.all x hx p hp
          exact ⟨b, List.mem_append_left _ g1, g2⟩
        · obtain rfl := List.mem_singleton.1 hx
          rw [hbo] at hp
          obtain ⟨b, g1, g2⟩ := List.mem_map.1 ((e2.mem p).2 hp)
          exact ⟨b, List.mem_append_right _ g1, g2, e2.child b g1⟩
      · intro b hb1 b' hb2 g1 g2
        rcases List.mem_append.1 hb1 with hb1 | hb1 <;> rcases List.mem_append.1 hb2 with hb2 | hb2
        · exact h.uniq b hb1 b' hb2 g1 g2
        · exact absurd (e2.child b' hb2 ▸ g2 ▸ h.child b hb1) hl
        · exact absurd (e2.child b hb1 ▸ g2.symm ▸ h.child b' hb2) hl
        · exact eq_of_nodup_map e2.parents b hb1 b' hb2 g1
    obtain ⟨c', s', f1, f2⟩ := ih (done ++ [l]) _ _ hT (by
        intro x hx hh
        rcases List.mem_append.1 hh with hh | hh
        · exact hnew x (List.mem_cons_of_mem _ hx) hh
        · obtain rfl := List.mem_singleton.1 hh
          exact (List.nodup_cons.1 hnd).1 hx) (List.nodup_cons.1 hnd).2
      (fun x hx => hsome x (List.mem_cons_of_mem _ hx))
    refine ⟨c', s', ?_, by simpa using f2⟩
    simp only [takeAll, hbc, e1, Option.bind_eq_bind, Option.bind_some, f1]

theorem insertNew_perm (x : NewBblock) (bs : List NewBblock) : (insertNew x bs).Perm (x :: bs) := by
  induction bs with
  | nil => exact List.Perm.refl _
  | cons y ys ih =>
    rw [insertNew]
    split
    · exact List.Perm.refl _
    · exact (ih.cons y).trans (List.Perm.swap x y ys)

theorem sortNew_perm (bs : List NewBblock) : (sortNew bs).Perm bs := by
  induction bs with
  | nil => exact List.Perm.refl _
  | cons x es ih => exact (insertNew_perm x _).trans (ih.cons x)

/-! ## Splitting the edges -/

/-- A branch is the last instruction. -/
def BranchLast (is : List Inst) : Prop :=
  ∀ k i, is[k]? = some i → i.t = .condGoto → k + 1 = is.length

def relabel (σ : Nat → Nat) (is : List Inst) : List Inst :=
  is.map (fun i => if i.t = .condGoto then { i with labels := i.labels.map σ } else i)

theorem relabel_length (σ : Nat → Nat) (is : List Inst) : (relabel σ is).length = is.length := by
  simp [relabel]

theorem relabel_relabel (σ τ : Nat → Nat) (is : List Inst) :
    relabel τ (relabel σ is) = relabel (fun x => τ (σ x)) is := by
  simp only [relabel, List.map_map]
  refine List.map_congr_left ?_
  intro i _
  simp only [Function.comp]
  by_cases h : i.t = .condGoto
  · simp [h, Function.comp_def]
  · simp [h]

theorem relabel_id {is : List Inst} (h : ∀ i ∈ is, i.t ≠ .condGoto) (σ : Nat → Nat) : relabel σ is = is := by
  rw [relabel]
  refine (List.map_congr_left ?_).trans (List.map_id is)
  intro i hi
  simp [h i hi]

theorem relabel_same (is : List Inst) : relabel (fun x => x) is = is := by
  rw [relabel]
  refine (List.map_congr_left ?_).trans (List.map_id is)
  intro i hi
  simp

theorem branchLast_relabel {is : List Inst} (h : BranchLast is) (σ : Nat → Nat) : BranchLast (relabel σ is) := by
  intro k i hk ht
  rw [relabel_length]
  simp only [relabel, List.getElem?_map, Option.map_eq_some_iff] at hk
  obtain ⟨j, hj, rfl⟩ := hk
  refine h k j hj ?_
  split at ht
  · assumption
  · exact ht

theorem retarget_eq {is : List Inst} (h : BranchLast is) (child label : Nat) :
    retarget child label is = relabel (fun x => if x = child then label else x) is := by
  rcases List.eq_nil_or_concat is with rfl | ⟨pre, z, rfl⟩
  · rfl
  · rw [List.concat_eq_append] at h ⊢
    have hpre : ∀ i ∈ pre, i.t ≠ .condGoto := by
      intro i hi hc
      obtain ⟨k, hk⟩ := List.getElem?_of_mem hi
      obtain ⟨hlt, -⟩ := List.getElem?_eq_some_iff.1 hk
      have := h k i (by rw [List.getElem?_append_left hlt]; exact hk) hc
      simp at this
      omega
    have h1 : relabel (fun x => if x = child then label else x) (pre ++ [z]) =
        pre ++ relabel (fun x => if x = child then label else x) [z] := by
      have := relabel_id hpre (fun x => if x = child then label else x)
      simp only [relabel] at this
      simp only [relabel, List.map_append, this]
    rw [h1]
    simp only [retarget, List.getLast?_append, List.getLast?_singleton, Option.some_or,
      List.dropLast_concat, relabel, List.map_cons, List.map_nil]
    split <;> rfl

/-- Where a jump from `l` to `x` goes after the edges in `bs` have been split. -/
def redirect (bs : List NewBblock) (l x : Nat) : Nat :=
  bs.foldl (fun x b => if l = b.parent ∧ x = b.child then b.label else x) x

theorem redirect_stay {n : Nat} {l : Nat} : ∀ (bs : List NewBblock), (∀ b ∈ bs, b.child < n) → ∀ x, n ≤ x →
    redirect bs l x = x := by
  intro bs
  induction bs with
  | nil => intro _ x _; rfl
  | cons b bs ih =>
    intro h x hx
    have : ¬ (l = b.parent ∧ x = b.child) := by
      rintro ⟨-, rfl⟩
      have := h b List.mem_cons_self
      omega
    simp only [redirect, List.foldl_cons, if_neg this]
    exact ih (fun c hc => h c (List.mem_cons_of_mem _ hc)) x hx

theorem redirect_none {l x : Nat} : ∀ (bs : List NewBblock), (∀ b ∈ bs, ¬ (l = b.parent ∧ x = b.child)) →
    redirect bs l x = x := by
  intro bs
  induction bs with
  | nil => intro _; rfl
  | cons b bs ih =>
    intro h
    simp only [redirect, List.foldl_cons, if_neg (h b List.mem_cons_self)]
    exact ih (fun c hc => h c (List.mem_cons_of_mem _ hc))

theorem redirect_some {n : Nat} {l x : Nat} : ∀ (bs : List NewBblock), (∀ b ∈ bs, b.child < n) →
    (∀ b ∈ bs, n ≤ b.label) →
    (∀ b ∈ bs, ∀ b' ∈ bs, b.parent = b'.parent → b.child = b'.child → b = b') →
    ∀ b ∈ bs, l = b.parent → x = b.child → redirect bs l x = b.label := by
  intro bs
  induction bs with
  | nil => intro _ _ _ b hb; cases hb
  | cons a bs ih =>
    intro h1 h2 h3 b hb e1 e2
    by_cases ha : l = a.parent ∧ x = a.child
    · have hab : b = a := h3 b hb a List.mem_cons_self (by rw [← e1, ha.1]) (by rw [← e2, ha.2])
      subst hab
      simp only [redirect, List.foldl_cons, if_pos ha]
      exact redirect_stay bs (fun c hc => h1 c (List.mem_cons_of_mem _ hc)) _ (h2 b List.mem_cons_self)
    · simp only [redirect, List.foldl_cons, if_neg ha]
      rcases List.mem_cons.1 hb with rfl | hb
      · exact absurd ⟨e1, e2⟩ ha
      · exact ih (fun c hc => h1 c (List.mem_cons_of_mem _ hc)) (fun c hc => h2 c (List.mem_cons_of_mem _ hc))
          (fun c hc d hd => h3 c (List.mem_cons_of_mem _ hc) d (List.mem_cons_of_mem _ hd)) b hb e1 e2

theorem redirect_append (bs : List NewBblock) (b : NewBblock) (l x : Nat) : redirect (bs ++ [b]) l x =
    if l = b.parent ∧ redirect bs l x = b.child then b.label else redirect bs l x := by
  rw [redirect, List.foldl_append]
  rfl

/-- After the edges in `done` have been split. -/
structure Split (c1 : Cfg) (n : Nat) (done : List NewBblock) (c : Cfg) : Prop where
  wf : WF c.graph
  entry : c.entry = c1.entry
  labels : ∀ l ∈ c1.graph.labels, l ∈ c.graph.labels
  edge : ∀ a b, c.graph.Edge a b ↔ (c1.graph.Edge a b ∧ ¬ ∃ m ∈ done, m.parent = a ∧ m.child = b) ∨
    ∃ m ∈ done, (a = m.parent ∧ b = m.label) ∨ (a = m.label ∧ b = m.child)
  old : ∀ l, l < n → Cfg.block c l = (Cfg.block c1 l).map (relabel (redirect done l))
  new : ∀ m ∈ done, Cfg.block c m.label = some m.insts
  fresh : ∀ l, n ≤ l → l ∉ done.map (·.label) → Cfg.block c l = none

theorem lookup_append_new {α : Type} {m : List (Nat × α)} {l x : Nat} {v : α} (h : m.lookup l = none) :
    (m ++ [(l, v)]).lookup x = if x = l then some v else m.lookup x := by
  induction m with
  | nil =>
    simp only [List.nil_append, List.lookup_cons, List.lookup_nil]
    by_cases hx : x = l
    · simp [hx]
    · rw [show (x == l) = false by simpa using hx, if_neg hx]
  | cons e m ih =>
    obtain ⟨k, u⟩ := e
    rw [List.lookup_cons] at h
    cases hlk : l == k with
    | true => rw [hlk] at h; cases h
    | false =>
      rw [hlk] at h
      have hne : l ≠ k := by simpa using hlk
      simp only [List.cons_append, List.lookup_cons]
      by_cases hx : x = k
      · subst hx
        simp [Ne.symm hne]
      · rw [show (x == k) = false by simpa using hx]
        exact ih h

theorem split_ok {c1 c : Cfg} {n : Nat} {done : List NewBblock} (h : Split c1 n done c) {b : NewBblock}
    (hp : b.parent < n) (hc : b.child < n) (hl : n ≤ b.label) (hfresh : b.label ∉ done.map (·.label))
    (he : c1.graph.Edge b.parent b.child) (w1 : WF c1.graph) {is : List Inst}
    (hb : Cfg.block c1 b.parent = some is) (hbl : BranchLast is)
    (hdl : ∀ m ∈ done, n ≤ m.label) :
    ∃ c', splitEdge c b = some c' ∧ Split c1 n (done ++ [b]) c' := by
  obtain ⟨g1, d1, -, -, -⟩ := disconnect_eq (g := c.graph)
    (h.labels _ (mem_labels_of_child he)) (h.labels _ (w1.child_label he))
  obtain ⟨wg1, -, hlab, hch⟩ := disconnect_wf h.wf d1
  have hbp : Cfg.block c b.parent = some (relabel (redirect done b.parent) is) := by
    rw [h.old _ hp, hb]; rfl
  have hret : retarget b.child b.label (relabel (redirect done b.parent) is) =
      relabel (redirect (done ++ [b]) b.parent) is := by
    rw [retarget_eq (branchLast_relabel hbl _), relabel_relabel]
    congr 1
    funext x
    rw [redirect_append]
    simp
  have hnone : Cfg.block (setBlock c b.parent (retarget b.child b.label
      (relabel (redirect done b.parent) is))) b.label = none := by
    rw [block_setBlock, if_neg (by omega)]
    exact h.fresh _ hl hfresh
  refine ⟨{ setBlock c b.parent (retarget b.child b.label (relabel (redirect done b.parent) is)) with
    graph := (g1.connect b.parent b.label).connect b.label b.child
    bblocks := (setBlock c b.parent (retarget b.child b.label (relabel (redirect done b.parent) is))).bblocks
      ++ [(b.label, b.insts)] }, ?_, ?_⟩
  · simp only [splitEdge, d1, hbp, Option.bind_eq_bind, Option.bind_some, hnone, Option.isSome_none,
      Bool.false_eq_true, if_false]
  have hblk : ∀ x, List.lookup x ((setBlock c b.parent (retarget b.child b.label
      (relabel (redirect done b.parent) is))).bblocks ++ [(b.label, b.insts)]) =
      if x = b.label then some b.insts
      else if x = b.parent then some (relabel (redirect (done ++ [b]) b.parent) is) else Cfg.block c x := by
    intro x
    rw [lookup_append_new hnone]
    have := block_setBlock (c := c) (l := b.parent) (x := x) (is := retarget b.child b.label
      (relabel (redirect done b.parent) is))
    simp only [Cfg.block] at this hbp ⊢
    rw [this]
    by_cases hx : x = b.parent
    · subst hx
      simp [hbp, hret]
    · simp [hx]
  refine ⟨wf_connect (wf_connect wg1 _ _) _ _, h.entry, ?_, ?_, ?_, ?_, ?_⟩
  · intro l hl'
    refine mem_labels_connect.2 (Or.inl (mem_labels_connect.2 (Or.inl ?_)))
    rw [hlab]
    exact h.labels l hl'
  · intro x y
    have hE : (((g1.connect b.parent b.label).connect b.label b.child).Edge x y) ↔
        (c.graph.Edge x y ∧ ¬ (x = b.parent ∧ y = b.child)) ∨ (x = b.parent ∧ y = b.label) ∨
          (x = b.label ∧ y = b.child) := by
      simp only [Graph.Edge]
      have hch' := hch x y
      rw [children_connect, children_connect, children_connect]
      have hne : b.label ≠ b.parent := by omega
      by_cases hx : x = b.label
      · subst hx
        rw [if_pos rfl, mem_setInsert, if_neg hne, hch]
        simp [hne]
      · simp only [hx, if_false, false_and, or_false]
        by_cases hx' : x = b.parent
        · subst hx'
          simp only [if_true, mem_setInsert, hch, true_and]
        · simp only [hx', if_false, hch, false_and, not_false_iff, and_true, or_false]
    rw [hE, h.edge]
    constructor
    · rintro (⟨⟨g1, g2⟩ | ⟨m, hm, g⟩, g3⟩ | g | g)
      · refine Or.inl ⟨g1, ?_⟩
        rintro ⟨m, hm, e1, e2⟩
        rcases List.mem_append.1 hm with hm | hm
        · exact g2 ⟨m, hm, e1, e2⟩
        · obtain rfl := List.mem_singleton.1 hm
          exact g3 ⟨e1.symm, e2.symm⟩
      · exact Or.inr ⟨m, List.mem_append_left _ hm, g⟩
      · exact Or.inr ⟨b, List.mem_append_right _ (List.mem_singleton_self b), Or.inl g⟩
      · exact Or.inr ⟨b, List.mem_append_right _ (List.mem_singleton_self b), Or.inr g⟩
    · rintro (⟨g1, g2⟩ | ⟨m, hm, g⟩)
      · refine Or.inl ⟨Or.inl ⟨g1, fun ⟨m, hm, e⟩ => g2 ⟨m, List.mem_append_left _ hm, e⟩⟩, ?_⟩
        rintro ⟨rfl, rfl⟩
        exact g2 ⟨b, List.mem_append_right _ (List.mem_singleton_self b), rfl, rfl⟩
      · rcases List.mem_append.1 hm with hm | hm
        · refine Or.inl ⟨Or.inr ⟨m, hm, g⟩, ?_⟩
          rintro ⟨rfl, rfl⟩
          have := hdl m hm
          rcases g with ⟨e1, e2⟩ | ⟨e1, e2⟩
          · omega
          · omega
        · obtain rfl := List.mem_singleton.1 hm
          exact Or.inr g
  · intro l hl'
    show List.lookup l _ = _
    rw [hblk, if_neg (by omega)]
    split
    · rename_i e
      subst e
      rw [hb]
      rfl
    · rename_i e
      rw [h.old l hl']
      congr 2
      funext x
      rw [redirect_append, if_neg (fun hh => e hh.1)]
  · intro m hm
    show List.lookup m.label _ = _
    rw [hblk]
    rcases List.mem_append.1 hm with hm | hm
    · rw [if_neg (fun e : m.label = b.label => hfresh (List.mem_map.2 ⟨m, hm, e⟩)), if_neg (by have := hdl m hm; omega)]
      exact h.new m hm
    · obtain rfl := List.mem_singleton.1 hm
      rw [if_pos rfl]
  · intro l h1 h2
    rw [List.map_append, List.mem_append, not_or] at h2
    show List.lookup l _ = _
    rw [hblk, if_neg (fun e => h2.2 (by simp [e])), if_neg (by omega)]
    exact h.fresh l h1 h2.1

theorem splitAll_ok {c1 : Cfg} {n : Nat} (w1 : WF c1.graph) : ∀ (bs done : List NewBblock) (c : Cfg),
    Split c1 n done c →
    (∀ b ∈ done ++ bs, b.parent < n ∧ b.child < n ∧ n ≤ b.label ∧ c1.graph.Edge b.parent b.child ∧
      ∃ is, Cfg.block c1 b.parent = some is ∧ BranchLast is) →
    ((done ++ bs).map (·.label)).Nodup →
    (∀ b ∈ done ++ bs, ∀ b' ∈ done ++ bs, b.parent = b'.parent → b.child = b'.child → b = b') →
    ∃ c', bs.foldlM splitEdge c = some c' ∧ Split c1 n (done ++ bs) c' := by
  intro bs
  induction bs with
  | nil => intro done c h _ _ _; exact ⟨c, rfl, by simpa using h⟩
  | cons b bs ih =>
    intro done c h h1 h2 h3
    have hb : b ∈ done ++ b :: bs := List.mem_append_right _ List.mem_cons_self
    have hd : ∀ m ∈ done, m ∈ done ++ b :: bs := fun m hm => List.mem_append_left _ hm
    obtain ⟨a1, a2, a3, a4, is, a5, a6⟩ := h1 b hb
    have hnot : b.label ∉ done.map (·.label) := by
      intro hh
      rw [List.map_append, List.nodup_append] at h2
      exact h2.2.2 b.label hh b.label (by simp) rfl
    obtain ⟨c', e1, e2⟩ := split_ok h a1 a2 a3 hnot a4 w1 a5 a6 (fun m hm => (h1 m (hd m hm)).2.2.1)
    obtain ⟨c2, e3, e4⟩ := ih (done ++ [b]) c' e2 (by simpa using h1) (by simpa using h2) (by simpa using h3)
    exact ⟨c2, by simp only [List.foldlM_cons, e1, Option.bind_eq_bind, Option.bind_some, e3], by simpa using e4⟩

end Verif.Opt
