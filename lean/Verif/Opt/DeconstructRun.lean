import Verif.Opt.Deconstruct
/-!
# Leaving SSA: the run
-/

namespace Verif.Opt

open Verif.Il Verif.Graph

variable {V W : Type} {I : Interp V W} {c0 : Cfg}

/-! ## Phis first -/

theorem phisFirst {l : Nat} (wf : WellFormed c0) :
    ∀ i ∈ (blockOf c0 l).dropWhile isPhi, i.t ≠ .phi := by
  intro i hi hp
  obtain ⟨pre, hpre⟩ : ∃ pre, blockOf c0 l = pre ++ (blockOf c0 l).dropWhile isPhi :=
    ⟨(blockOf c0 l).takeWhile isPhi, List.takeWhile_append_dropWhile.symm⟩
  obtain ⟨j, hj⟩ := List.getElem?_of_mem hi
  have h1 : instAt c0 l (pre.length + j) = some i := by
    rw [instAt, hpre, List.getElem?_append_right (Nat.le_add_right _ _), Nat.add_sub_cancel_left]
    exact hj
  cases hd : (blockOf c0 l).dropWhile isPhi with
  | nil => rw [hd] at hi; cases hi
  | cons z zs =>
    have h2 : instAt c0 l pre.length = some z := by
      rw [instAt, hpre, List.getElem?_append_right (Nat.le_refl _), Nat.sub_self, hd]
      rfl
    have := wf.phiFirst l _ _ i z h1 hp (Nat.le_add_right pre.length j) h2
    have hz : isPhi z = false := by
      have := List.head?_dropWhile_not isPhi (blockOf c0 l)
      rw [hd] at this
      simpa using this
    rw [isPhi_iff.2 this] at hz
    cases hz

theorem execAll_dropPhis (is : List Inst) (s : (Nat → V) × W) :
    execAll I (is.dropWhile isPhi) s = execAll I is s := by
  induction is with
  | nil => rfl
  | cons i is ih =>
    by_cases h : i.t = .phi
    · rw [List.dropWhile_cons_of_pos (isPhi_iff.2 h), ih]
      show _ = execAll I is (exec I i s)
      rw [exec_phi I s h]
    · rw [List.dropWhile_cons_of_neg (fun hh => h (isPhi_iff.1 hh))]

theorem execAll_relabel (σ : Nat → Nat) (is : List Inst) (s : (Nat → V) × W) :
    execAll I (relabel σ is) s = execAll I is s := by
  induction is generalizing s with
  | nil => rfl
  | cons i is ih =>
    show execAll I (relabel σ is) (exec I _ s) = execAll I is (exec I i s)
    have : exec I (if i.t = .condGoto then { i with labels := i.labels.map σ } else i) s = exec I i s := by
      split
      · rename_i h
        simp [exec, h]
      · rfl
    rw [this, ih]

theorem enter_noPhi (src : Nat → V) (p : Nat) : ∀ (is : List Inst) (e : Nat → V), (∀ i ∈ is, i.t ≠ .phi) →
    enter I src p is e = e := by
  intro is
  induction is with
  | nil => intro e _; rfl
  | cons i is ih =>
    intro e h
    rw [enter, if_neg (h i List.mem_cons_self)]
    exact ih e (fun j hj => h j (List.mem_cons_of_mem _ hj))

theorem enter_append (src : Nat → V) (p : Nat) : ∀ (is js : List Inst) (e : Nat → V),
    enter I src p (is ++ js) e = enter I src p js (enter I src p is e) := by
  intro is
  induction is with
  | nil => intro js e; rfl
  | cons i is ih => intro js e; exact ih js _

theorem enter_takeWhile (wf : WellFormed c0) (src : Nat → V) (p l : Nat) (e : Nat → V) :
    enter I src p (blockOf c0 l) e = enter I src p ((blockOf c0 l).takeWhile isPhi) e := by
  have := enter_append (I := I) src p ((blockOf c0 l).takeWhile isPhi) ((blockOf c0 l).dropWhile isPhi) e
  rw [List.takeWhile_append_dropWhile] at this
  rw [this]
  exact enter_noPhi src p _ _ (phisFirst wf)

theorem entries_cons {i : Inst} (h : i.t = .phi) (is : List Inst) : entries (i :: is) =
    (i.labels.zip i.args).map (fun e => (i.tgts.headD 0, e.1, e.2)) ++ entries is := by
  simp [entries, List.takeWhile_cons, isPhi_iff.2 h]

theorem copiesFor_one {t p : Nat} : ∀ (xs : List (Nat × Arg)), (xs.map (·.1)).Nodup →
    copiesFor p (xs.map (fun e => (t, e.1, e.2))) =
      match xs.lookup p with
      | some a => [Inst.varAssign t a]
      | none => [] := by
  intro xs
  induction xs with
  | nil => intro _; rfl
  | cons x xs ih =>
    intro h
    obtain ⟨q, a⟩ := x
    rw [List.map_cons, List.nodup_cons] at h
    rw [List.lookup_cons]
    by_cases hq : p = q
    · subst hq
      have : copiesFor p (xs.map (fun e => (t, e.1, e.2))) = [] := by
        refine copiesFor_nil ?_
        rintro ⟨e, he, hp⟩
        obtain ⟨e', he', rfl⟩ := List.mem_map.1 he
        exact h.1 (List.mem_map.2 ⟨e', he', hp⟩)
      simp only [copiesFor, List.map_cons, List.filterMap_cons, if_true, beq_self_eq_true] at this ⊢
      rw [this]
    · rw [show (p == q) = false by simpa using hq]
      have := ih h.2
      simp only [copiesFor, List.map_cons, List.filterMap_cons, if_neg (Ne.symm hq)] at this ⊢
      exact this

/-- The copies in order are the phis in parallel, when no phi reads what an earlier one has written.  The list
is a suffix of the phis of a block; `wr` holds what the earlier ones have written. -/
theorem copies_parallel (src : Nat → V) (p : Nat) : ∀ (is : List Inst) (e : Nat → V) (w : W) (wr : List Nat),
    (∀ i ∈ is, i.t = .phi ∧ (∃ t, i.tgts = [t]) ∧ i.labels.length = i.args.length ∧ i.labels.Nodup) →
    (∀ x, x ∉ wr → e x = src x) →
    (∀ i ∈ is, ∀ x, (p, Arg.var x) ∈ i.labels.zip i.args → x ∉ wr) →
    (∀ (j k : Nat) (i i' : Inst) (x : Nat), is[j]? = some i → is[k]? = some i' → j < k → p ∈ i.labels →
      (p, Arg.var x) ∈ i'.labels.zip i'.args → x ∉ i.tgts) →
    execAll I (copiesFor p (entries is)) (e, w) = (enter I src p is e, w) := by
  intro is
  induction is with
  | nil => intro e w wr _ _ _ _; rfl
  | cons i is ih =>
    intro e w wr h1 h2 h3 h4
    obtain ⟨hp, ⟨t, ht⟩, hl, hn⟩ := h1 i List.mem_cons_self
    rw [entries_cons hp, copiesFor_append, copiesFor_one _ (by rw [map_fst_zip' hl]; exact hn), execAll,
      List.foldl_append, enter, if_pos hp, ht]
    have h1' : ∀ i ∈ is, i.t = .phi ∧ (∃ t, i.tgts = [t]) ∧ i.labels.length = i.args.length ∧ i.labels.Nodup :=
      fun j hj => h1 j (List.mem_cons_of_mem _ hj)
    have h4' : ∀ (j k : Nat) (i i' : Inst) (x : Nat), is[j]? = some i → is[k]? = some i' → j < k → p ∈ i.labels →
        (p, Arg.var x) ∈ i'.labels.zip i'.args → x ∉ i.tgts := by
      intro j k a b x ha hb hjk
      exact h4 (j + 1) (k + 1) a b x (by simpa using ha) (by simpa using hb) (by omega)
    cases hlk : (i.labels.zip i.args).lookup p with
    | none =>
      exact ih e w wr h1' h2 (fun j hj => h3 j (List.mem_cons_of_mem _ hj)) h4'
    | some a =>
      have hm := mem_of_lookup_eq hlk
      have hval : valOf I e a = valOf I src a := by
        cases a with
        | var x => exact h2 x (h3 i List.mem_cons_self x hm)
        | builtin _ => rfl
        | const _ => rfl
        | fn _ => rfl
      have hex : List.foldl (fun s i => exec I i s) (e, w) [Inst.varAssign t a] =
          (setAll e [t] (valOf I src a), w) := by
        simp [exec, Inst.varAssign, hval]
      simp only [List.headD_cons, hex]
      refine ih _ w (t :: wr) h1' ?_ ?_ h4'
      · intro x hx
        rw [List.mem_cons, not_or] at hx
        simp only [setAll, List.mem_singleton, if_neg hx.1]
        exact h2 x hx.2
      · intro j hj x hx
        rw [List.mem_cons, not_or]
        refine ⟨?_, h3 j (List.mem_cons_of_mem _ hj) x hx⟩
        obtain ⟨k, hk⟩ := List.getElem?_of_mem hj
        have := h4 0 (k + 1) i j x rfl (by simpa using hk) (by omega) (List.of_mem_zip hm).1 hx
        rw [ht, List.mem_singleton] at this
        exact this

theorem takeWhile_getElem? (q : Inst → Bool) : ∀ (is : List Inst) (k : Nat) (i : Inst),
    (is.takeWhile q)[k]? = some i → is[k]? = some i ∧ q i = true := by
  intro is
  induction is with
  | nil => intro k i h; simp at h
  | cons x xs ih =>
    intro k i h
    rw [List.takeWhile_cons] at h
    split at h
    · cases k with
      | zero =>
        simp only [List.getElem?_cons_zero, Option.some.injEq] at h
        subst h
        exact ⟨rfl, by assumption⟩
      | succ k => exact ih k i (by simpa using h)
    · simp at h

theorem entries_takeWhile (is : List Inst) : entries (is.takeWhile isPhi) = entries is := by
  simp only [entries]
  congr 1
  induction is with
  | nil => rfl
  | cons x xs ih =>
    by_cases h : isPhi x
    · simp only [List.takeWhile_cons, h, if_true, ih]
    · simp [List.takeWhile_cons, h]

theorem copies_enter (wf : WellFormed c0) (nc : NoClobber c0) (src : Nat → V) (w : W) (p l : Nat) :
    execAll I (copiesFor p (entries (blockOf c0 l))) (src, w) = (enter I src p (blockOf c0 l) src, w) := by
  rw [enter_takeWhile wf, ← entries_takeWhile]
  refine copies_parallel src p _ src w [] ?_ (fun _ _ => rfl) (by simp) ?_
  · intro i hi
    obtain ⟨k, hk⟩ := List.getElem?_of_mem hi
    obtain ⟨h1, h2⟩ := takeWhile_getElem? _ _ _ _ hk
    have hp := isPhi_iff.1 h2
    have sh := wf.shape l k i h1
    simp only [Shape, hp] at sh
    exact ⟨hp, sh.1, sh.2, wf.phiOnce l k i h1 hp⟩
  · intro j k i i' x hj hk hjk hpl hx
    obtain ⟨h1, h2⟩ := takeWhile_getElem? _ _ _ _ hj
    obtain ⟨h3, h4⟩ := takeWhile_getElem? _ _ _ _ hk
    exact nc l j k i i' p x h1 (isPhi_iff.1 h2) hpl h3 (isPhi_iff.1 h4) hjk hx

/-- Without copies for a predecessor the phis do nothing on that edge. -/
theorem enter_noEntry (wf : WellFormed c0) (nc : NoClobber c0) (src : Nat → V) (w : W) {p l : Nat}
    (h : ¬ ∃ e ∈ entries (blockOf c0 l), e.2.1 = p) : enter I src p (blockOf c0 l) src = src := by
  have := copies_enter (I := I) wf nc src w p l
  rw [copiesFor_nil h] at this
  exact (Prod.mk.inj this).1.symm

/-! ## The result of the pass -/

/-- What the pass produces, in one place: every edge with copies goes through a new block. -/
structure Result (c0 c : Cfg) (n : Nat) (bs : List NewBblock) : Prop where
  entry : c.entry = c0.entry
  wf : WF c.graph
  edge : ∀ a b, c.graph.Edge a b ↔ (c0.graph.Edge a b ∧ ¬ ∃ m ∈ bs, m.parent = a ∧ m.child = b) ∨
    ∃ m ∈ bs, (a = m.parent ∧ b = m.label) ∨ (a = m.label ∧ b = m.child)
  old : ∀ l, l < n → blockOf c l = relabel (redirect bs l) ((blockOf c0 l).dropWhile isPhi)
  new : ∀ m ∈ bs, blockOf c m.label = copiesFor m.parent (entries (blockOf c0 m.child))
  none : ∀ l, n ≤ l → l ∉ bs.map (·.label) → blockOf c l = []
  lab : ∀ m ∈ bs, n ≤ m.label ∧ m.parent < n ∧ m.child < n ∧ c0.graph.Edge m.parent m.child
  nodup : (bs.map (·.label)).Nodup
  uniq : ∀ b ∈ bs, ∀ b' ∈ bs, b.parent = b'.parent → b.child = b'.child → b = b'
  all : ∀ p l, (∃ e ∈ entries (blockOf c0 l), e.2.1 = p) → ∃ b ∈ bs, b.parent = p ∧ b.child = l

theorem mem_entries {is : List Inst} {e : Nat × Nat × Arg} (h : e ∈ entries is) :
    ∃ (k : Nat) (i : Inst), is[k]? = some i ∧ i.t = .phi ∧ e.2.1 ∈ i.labels := by
  simp only [entries, List.mem_flatMap, List.mem_map] at h
  obtain ⟨i, hi, ⟨p, a⟩, hpa, rfl⟩ := h
  obtain ⟨k, hk⟩ := List.getElem?_of_mem hi
  obtain ⟨h1, h2⟩ := takeWhile_getElem? _ _ _ _ hk
  exact ⟨k, i, h1, isPhi_iff.1 h2, (List.of_mem_zip hpa).1⟩

theorem block_mem {c : Cfg} {l : Nat} {is : List Inst} (h : Cfg.block c l = some is) :
    l ∈ c.bblocks.map (·.1) :=
  List.mem_map.2 ⟨(l, is), mem_of_lookup_eq h, rfl⟩

theorem block_of_mem {c : Cfg} {l : Nat} (h : l ∈ c.bblocks.map (·.1)) : (Cfg.block c l).isSome := by
  simp only [Cfg.block]
  generalize c.bblocks = m at h
  induction m with
  | nil => cases h
  | cons e m ih =>
    obtain ⟨k, v⟩ := e
    rw [List.lookup_cons]
    cases hk : l == k with
    | true => rfl
    | false =>
      rcases List.mem_cons.1 h with rfl | h
      · simp at hk
      · exact ih h

theorem branchLast_drop {l : Nat} (wf : WellFormed c0) : BranchLast ((blockOf c0 l).dropWhile isPhi) := by
  intro k i hk hc
  obtain ⟨pre, hpre⟩ : ∃ pre, blockOf c0 l = pre ++ (blockOf c0 l).dropWhile isPhi :=
    ⟨(blockOf c0 l).takeWhile isPhi, List.takeWhile_append_dropWhile.symm⟩
  have h1 : instAt c0 l (pre.length + k) = some i := by
    rw [instAt, hpre, List.getElem?_append_right (Nat.le_add_right _ _), Nat.add_sub_cancel_left]
    exact hk
  have h2 := wf.branchLast l _ i h1 hc
  have h3 := congrArg List.length hpre
  rw [List.length_append] at h3
  omega

theorem deconstruct_result (wf : WellFormed c0) (w : WF c0.graph) (pp : PhiParents c0) {n : Nat}
    (lb : LabelsBelow c0 n) :
    ∃ c bs, deconstruct c0 n = some (c, n + bs.length) ∧ Result c0 c n bs := by
  have hnd : (sortLabels (c0.bblocks.map (·.1))).Nodup := sortLabels_perm.nodup_iff.2 wf.labels
  obtain ⟨c1, s1, e1, t⟩ := takeAll_ok (n := n) wf (sortLabels (c0.bblocks.map (·.1))) [] c0 (n, [])
    ⟨rfl, rfl, rfl, fun l => by simp, by simp, by simp, by simp, by simp, by simp, by simp, by simp⟩
    (by simp) hnd (fun l hl => block_of_mem (mem_sortLabels.1 hl))
  rw [List.nil_append] at t
  obtain ⟨n1, new⟩ := s1
  have hperm := sortNew_perm new
  have hnum : n1 = n + new.length := t.num
  have hb1 : ∀ l, Cfg.block c1 l = (Cfg.block c0 l).map (fun is => is.dropWhile isPhi) := by
    intro l
    rw [t.block l]
    split
    · rfl
    · rename_i hl
      cases hb : Cfg.block c0 l with
      | none => rfl
      | some is => exact absurd (mem_sortLabels.2 (block_mem hb)) hl
  have hbo1 : ∀ l, blockOf c1 l = (blockOf c0 l).dropWhile isPhi := by
    intro l
    simp only [blockOf, hb1]
    cases Cfg.block c0 l <;> rfl
  have hlab : ∀ b ∈ new, n ≤ b.label ∧ b.parent < n ∧ b.child < n ∧ c0.graph.Edge b.parent b.child ∧
      (Cfg.block c0 b.parent).isSome := by
    intro b hb
    obtain ⟨e, he, hp⟩ := t.source b hb
    obtain ⟨k, i, h1, h2, h3⟩ := mem_entries he
    rw [hp] at h3
    obtain ⟨g1, g2⟩ := pp b.child k i b.parent h1 h2 h3
    refine ⟨?_, lb.2 _ (mem_labels_of_child g1), lb.2 _ (w.child_label g1), g1, g2⟩
    have : b.label ∈ new.map (·.label) := List.mem_map.2 ⟨b, hb, rfl⟩
    have hl := t.labels
    simp only at hl
    rw [hl, List.mem_range'_1] at this
    exact this.1
  have hnd' : (new.map (·.label)).Nodup := by
    have hl := t.labels
    simp only at hl
    rw [hl]
    exact List.nodup_range'
  have w1 : WF c1.graph := by rw [t.graph]; exact w
  have s0 : Split c1 n [] c1 := by
    refine ⟨w1, rfl, fun _ h => h, by simp, ?_, by simp, ?_⟩
    · intro l _
      have : redirect [] l = fun x => x := rfl
      rw [this]
      cases Cfg.block c1 l with
      | none => rfl
      | some is => simp [relabel_same]
    · intro l hl _
      rw [hb1]
      cases hb : Cfg.block c0 l with
      | none => rfl
      | some is =>
        have := lb.1 l (block_mem hb)
        omega
  obtain ⟨c, e2, s⟩ := splitAll_ok w1 (sortNew new) [] c1 s0 (by
      intro b hb
      have hb : b ∈ new := hperm.mem_iff.1 (by simpa using hb)
      obtain ⟨a1, a2, a3, a4, a5⟩ := hlab b hb
      obtain ⟨is, a5⟩ := Option.isSome_iff_exists.1 a5
      refine ⟨a2, a3, a1, by rw [t.graph]; exact a4, is.dropWhile isPhi, by rw [hb1, a5]; rfl, ?_⟩
      have := branchLast_drop (l := b.parent) wf
      simpa [blockOf, a5] using this)
    (by simpa using (hperm.map (·.label)).nodup_iff.2 hnd')
    (by
      intro b hb b' hb'
      exact t.uniq b (hperm.mem_iff.1 (by simpa using hb)) b' (hperm.mem_iff.1 (by simpa using hb')))
  rw [List.nil_append] at s
  refine ⟨c, sortNew new, ?_, ?_⟩
  · simp only [deconstruct, e1, e2, Option.bind_eq_bind, Option.bind_some, hnum, hperm.length_eq]
  · refine ⟨by rw [s.entry, t.entry], s.wf, ?_, ?_, ?_, ?_, ?_, ?_, ?_, ?_⟩
    · intro a b
      rw [s.edge, t.graph]
    · intro l hl
      rw [← hbo1]
      simp only [blockOf, s.old l hl]
      cases Cfg.block c1 l <;> rfl
    · intro m hm
      simp only [blockOf, s.new m hm, Option.getD_some]
      exact t.insts m (hperm.mem_iff.1 hm)
    · intro l hl hl'
      simp only [blockOf, s.fresh l hl hl', Option.getD_none]
    · intro m hm
      obtain ⟨a1, a2, a3, a4, -⟩ := hlab m (hperm.mem_iff.1 hm)
      exact ⟨a1, a2, a3, a4⟩
    · exact (hperm.map (·.label)).nodup_iff.2 hnd'
    · intro b hb b' hb'
      exact t.uniq b (hperm.mem_iff.1 hb) b' (hperm.mem_iff.1 hb')
    · intro p l hp
      have hl : l ∈ sortLabels (c0.bblocks.map (·.1)) := by
        obtain ⟨e, he, -⟩ := hp
        rw [mem_sortLabels]
        cases hb : Cfg.block c0 l with
        | none => rw [blockOf, hb] at he; simp [entries] at he
        | some is => exact block_mem hb
      obtain ⟨b, g1, g2⟩ := t.all l hl p hp
      exact ⟨b, hperm.mem_iff.2 g1, g2⟩

/-! ## Runs -/

section
variable {c : Cfg} {n : Nat} {bs : List NewBblock}

theorem Result.split (r : Result c0 c n bs) {m : NewBblock} (hm : m ∈ bs) :
    redirect bs m.parent m.child = m.label :=
  redirect_some bs (fun b hb => (r.lab b hb).2.2.1) (fun b hb => (r.lab b hb).1) r.uniq m hm rfl rfl

theorem Result.same {l x : Nat} (h : ¬ ∃ m ∈ bs, m.parent = l ∧ m.child = x) :
    redirect bs l x = x :=
  redirect_none bs (fun b hb hh => h ⟨b, hb, hh.1.symm, hh.2.symm⟩)

theorem Result.redirect_inj (r : Result c0 c n bs) {l x y : Nat} (hx : x < n) (hy : y < n)
    (h : redirect bs l x = redirect bs l y) : x = y := by
  by_cases h1 : ∃ m ∈ bs, m.parent = l ∧ m.child = x <;> by_cases h2 : ∃ m ∈ bs, m.parent = l ∧ m.child = y
  · obtain ⟨m, hm, rfl, rfl⟩ := h1
    obtain ⟨m', hm', e, rfl⟩ := h2
    rw [r.split hm, ← e, r.split hm'] at h
    rw [eq_of_nodup_map r.nodup m hm m' hm' h]
  · obtain ⟨m, hm, rfl, rfl⟩ := h1
    rw [r.split hm, Result.same h2] at h
    have := (r.lab m hm).1
    omega
  · obtain ⟨m, hm, rfl, rfl⟩ := h2
    rw [Result.same h1, r.split hm] at h
    have := (r.lab m hm).1
    omega
  · rw [Result.same h1, Result.same h2] at h
    exact h

theorem nodup_map_inj {f : Nat → Nat} : ∀ {xs : List Nat}, xs.Nodup →
    (∀ x ∈ xs, ∀ y ∈ xs, f x = f y → x = y) → (xs.map f).Nodup := by
  intro xs
  induction xs with
  | nil => intro _ _; simp
  | cons x xs ih =>
    intro h hf
    rw [List.nodup_cons] at h
    rw [List.map_cons, List.nodup_cons]
    refine ⟨?_, ih h.2 (fun a ha b hb => hf a (List.mem_cons_of_mem _ ha) b (List.mem_cons_of_mem _ hb))⟩
    intro hm
    obtain ⟨y, hy, e⟩ := List.mem_map.1 hm
    have := hf y (List.mem_cons_of_mem _ hy) x List.mem_cons_self e
    exact h.1 (this ▸ hy)

theorem Result.children (r : Result c0 c n bs) (w : WF c0.graph) (lb : LabelsBelow c0 n) {l : Nat} (hl : l < n) :
    (c.graph.children l).Perm ((c0.graph.children l).map (redirect bs l)) := by
  have hlt : ∀ x ∈ c0.graph.children l, x < n := fun x hx => lb.2 x (w.child_label hx)
  refine (List.perm_ext_iff_of_nodup (r.wf.ncs l) ?_).2 ?_
  · refine nodup_map_inj (w.ncs l) ?_
    intro x hx y hy h
    exact r.redirect_inj (hlt x hx) (hlt y hy) h
  · intro b
    have := r.edge l b
    simp only [Graph.Edge] at this
    rw [this, List.mem_map]
    constructor
    · rintro (⟨h1, h2⟩ | ⟨m, hm, ⟨rfl, rfl⟩ | ⟨rfl, rfl⟩⟩)
      · exact ⟨b, h1, Result.same h2⟩
      · exact ⟨m.child, (r.lab m hm).2.2.2, r.split hm⟩
      · have := (r.lab m hm).1
        omega
    · rintro ⟨x, hx, rfl⟩
      by_cases h : ∃ m ∈ bs, m.parent = l ∧ m.child = x
      · obtain ⟨m, hm, rfl, rfl⟩ := h
        exact Or.inr ⟨m, hm, Or.inl ⟨rfl, r.split hm⟩⟩
      · rw [Result.same h]
        exact Or.inl ⟨hx, h⟩

theorem Result.childrenNew (r : Result c0 c n bs) (lb : LabelsBelow c0 n) {m : NewBblock} (hm : m ∈ bs) :
    c.graph.children m.label = [m.child] := by
  refine List.perm_singleton.1 ((List.perm_ext_iff_of_nodup (r.wf.ncs _) (by simp)).2 ?_)
  intro b
  have := r.edge m.label b
  simp only [Graph.Edge] at this
  have hl := (r.lab m hm).1
  rw [this, List.mem_singleton]
  constructor
  · rintro (⟨h1, h2⟩ | ⟨m', hm', ⟨h1, -⟩ | ⟨h1, rfl⟩⟩)
    · have := lb.2 _ (mem_labels_of_child h1)
      omega
    · have := (r.lab m' hm').2.1
      omega
    · rw [eq_of_nodup_map r.nodup m hm m' hm' h1]
  · rintro rfl
    exact Or.inr ⟨m, hm, Or.inr ⟨rfl, rfl⟩⟩

theorem perm_single {xs ys : List Nat} {σ : Nat → Nat} (h : xs.Perm (ys.map σ)) :
    (match xs with | [s] => some s | _ => none) = (match ys with | [s] => some s | _ => none).map σ := by
  match ys with
  | [] => rw [List.map_nil, List.perm_nil] at h; subst h; rfl
  | [y] => rw [List.map_cons, List.map_nil, List.perm_singleton] at h; subst h; rfl
  | y :: z :: ys =>
    have := h.length_eq
    match xs with
    | [] => rfl
    | [_] => simp at this
    | _ :: _ :: _ => rfl

theorem getLast?_relabel (σ : Nat → Nat) (is : List Inst) : (relabel σ is).getLast? =
    is.getLast?.map (fun i => if i.t = .condGoto then { i with labels := i.labels.map σ } else i) :=
  List.getLast?_map

theorem getLast?_drop (is : List Inst) :
    (is.dropWhile isPhi).getLast? = is.getLast? ∨
      (is.dropWhile isPhi = [] ∧ ∀ i, is.getLast? = some i → i.t ≠ .condGoto) := by
  cases hd : is.dropWhile isPhi with
  | nil =>
    right
    refine ⟨rfl, ?_⟩
    intro i hi hc
    have hall : ∀ x ∈ is, isPhi x = true := by
      intro x hx
      have := List.takeWhile_append_dropWhile (p := isPhi) (l := is)
      rw [hd, List.append_nil] at this
      rw [← this] at hx
      exact List.all_eq_true.1 (List.all_takeWhile (l := is) (p := isPhi)) x hx
    have := isPhi_iff.1 (hall i (List.mem_of_getLast? hi))
    rw [this] at hc
    cases hc
  | cons z zs =>
    left
    have := List.takeWhile_append_dropWhile (p := isPhi) (l := is)
    rw [hd] at this
    rw [← this, List.getLast?_append]
    simp [List.getLast?_cons]

theorem result_next (r : Result c0 c n bs) (wf : WellFormed c0) (w : WF c0.graph) (lb : LabelsBelow c0 n) {l : Nat}
    (hl : l < n) (e : Nat → V) :
    next I c l (blockOf c l) e = (next I c0 l (blockOf c0 l) e).map (redirect bs l) := by
  have hs := perm_single (r.children w lb hl)
  simp only [next]
  rw [r.old l hl, getLast?_relabel]
  rcases getLast?_drop (blockOf c0 l) with h | ⟨h1, h2⟩
  · rw [h]
    cases hg : (blockOf c0 l).getLast? with
    | none => exact hs
    | some i =>
      simp only [Option.map_some]
      by_cases hc : i.t = .condGoto
      · simp only [hc, if_true]
        obtain ⟨k, hk⟩ := List.getElem?_of_mem (List.mem_of_getLast? hg)
        have sh := wf.shape l k i hk
        simp only [Shape, hc] at sh
        obtain ⟨-, ⟨a, ha⟩, t, f, hlab⟩ := sh
        simp only [ha, hlab, List.map_cons, List.map_nil, Option.map_some]
        split <;> rfl
      · simp only [hc, if_false]
        exact hs
  · rw [h1]
    cases hg : (blockOf c0 l).getLast? with
    | none => exact hs
    | some i =>
      have := h2 i hg
      simp only [List.getLast?_nil, Option.map_none, this, if_false]
      exact hs

theorem copies_noPhi (p : Nat) (es : List (Nat × Nat × Arg)) : ∀ i ∈ copiesFor p es, i.t = .varAssign := by
  intro i hi
  simp only [copiesFor, List.mem_filterMap] at hi
  obtain ⟨e, -, h⟩ := hi
  split at h
  · obtain rfl := Option.some.inj h
    rfl
  · cases h

theorem Result.noPhis (r : Result c0 c n bs) (wf : WellFormed c0) (l : Nat) : ∀ i ∈ blockOf c l, i.t ≠ .phi := by
  intro i hi
  by_cases hl : l < n
  · rw [r.old l hl, relabel, List.mem_map] at hi
    obtain ⟨j, hj, rfl⟩ := hi
    have := phisFirst wf j hj
    split
    · rename_i hc
      intro hh
      simp only [hc] at hh
      cases hh
    · exact this
  · by_cases hm : l ∈ bs.map (·.label)
    · obtain ⟨m, hm', rfl⟩ := List.mem_map.1 hm
      rw [r.new m hm'] at hi
      rw [copies_noPhi _ _ i hi]
      exact fun h => by cases h
    · rw [r.none l (by omega) hm] at hi
      cases hi

/-- One block of the original takes one or two blocks of the result. -/
theorem result_step (r : Result c0 c n bs) (wf : WellFormed c0) (w : WF c0.graph) (nc : NoClobber c0)
    (lb : LabelsBelow c0 n) {l : Nat} (hl : l < n) (e : Nat → V) (u : W) :
    step I c ⟨some l, e, u⟩ = step I c0 ⟨some l, e, u⟩ ∨
      (step I c (step I c ⟨some l, e, u⟩) = step I c0 ⟨some l, e, u⟩ ∧
        (step I c ⟨some l, e, u⟩).world = (step I c0 ⟨some l, e, u⟩).world ∧
        ∃ x, (step I c ⟨some l, e, u⟩).at_ = some x ∧ n ≤ x) := by
  have hex : execAll I (blockOf c l) (e, u) = execAll I (blockOf c0 l) (e, u) := by
    rw [r.old l hl, execAll_relabel, execAll_dropPhis]
  have hn := result_next (I := I) r wf w lb hl (execAll I (blockOf c0 l) (e, u)).1
  simp only [Opt.step, hex, hn]
  cases hx : Opt.next I c0 l (blockOf c0 l) (execAll I (blockOf c0 l) (e, u)).1 with
  | none => left; rfl
  | some x =>
    simp only [Option.map_some]
    generalize execAll I (blockOf c0 l) (e, u) = s at *
    obtain ⟨e1, u1⟩ := s
    simp only
    by_cases hm : ∃ m ∈ bs, m.parent = l ∧ m.child = x
    · right
      obtain ⟨m, hm, rfl, rfl⟩ := hm
      rw [r.split hm]
      refine ⟨?_, trivial, m.label, rfl, (r.lab m hm).1⟩
      simp only [enter_noPhi e1 m.parent _ e1 (r.noPhis wf m.label)]
      rw [r.new m hm, copies_enter wf nc]
      have hnx : ∀ e2 : Nat → V, Opt.next I c m.label (copiesFor m.parent (entries (blockOf c0 m.child))) e2 =
          some m.child := by
        intro e2
        simp only [Opt.next, r.childrenNew lb hm]
        cases hg : (copiesFor m.parent (entries (blockOf c0 m.child))).getLast? with
        | none => rfl
        | some i =>
          have := copies_noPhi _ _ i (List.mem_of_getLast? hg)
          simp [this]
      rw [hnx]
      simp only [enter_noPhi _ _ _ _ (r.noPhis wf m.child)]
    · left
      rw [Result.same hm, enter_noPhi _ _ _ _ (r.noPhis wf x)]
      rw [enter_noEntry wf nc e1 u1]
      intro hh
      exact hm (r.all l x hh)

theorem next_lt (wf : WellFormed c0) (w : WF c0.graph) (lb : LabelsBelow c0 n) {l x : Nat} {e : Nat → V}
    (h : Opt.next I c0 l (blockOf c0 l) e = some x) : x < n :=
  lb.2 _ (w.child_label (next_edge wf h))

theorem run_lt (wf : WellFormed c0) (w : WF c0.graph) (lb : LabelsBelow c0 n) (e : Nat → V) (u : W) :
    ∀ k l, (run I c0 e u k).at_ = some l → l < n := by
  intro k
  cases k with
  | zero =>
    intro l h
    obtain rfl := Option.some.inj h
    obtain ⟨is, h⟩ := Option.isSome_iff_exists.1 wf.entryBlock
    exact lb.1 _ (block_mem h)
  | succ k =>
    intro l h
    rw [run] at h
    generalize run I c0 e u k = x at h
    obtain ⟨a, e1, u1⟩ := x
    cases a with
    | none => cases h
    | some p =>
      simp only [Opt.step] at h
      cases hn : Opt.next I c0 p (blockOf c0 p) (execAll I (blockOf c0 p) (e1, u1)).1 with
      | none => rw [hn] at h; cases h
      | some s =>
        rw [hn] at h
        obtain rfl := Option.some.inj h
        exact next_lt wf w lb hn

theorem result_run (r : Result c0 c n bs) (wf : WellFormed c0) (w : WF c0.graph) (nc : NoClobber c0)
    (lb : LabelsBelow c0 n) (e : Nat → V) (u : W) :
    ∃ f : Nat → Nat, f 0 = 0 ∧ (∀ k, f (k + 1) = f k + 1 ∨
        (f (k + 1) = f k + 2 ∧ (run I c e u (f k + 1)).world = (run I c e u (f (k + 1))).world ∧
          ∃ x, (run I c e u (f k + 1)).at_ = some x ∧ n ≤ x)) ∧
      ∀ k, run I c e u (f k) = run I c0 e u k := by
  have key : ∀ k m, ∃ d, run I c e u m = run I c0 e u k → (d = 1 ∨ (d = 2 ∧
      (run I c e u (m + 1)).world = (run I c e u (m + 2)).world ∧
        ∃ x, (run I c e u (m + 1)).at_ = some x ∧ n ≤ x)) ∧ run I c e u (m + d) = run I c0 e u (k + 1) := by
    intro k m
    by_cases h : run I c e u m = run I c0 e u k
    case neg => exact ⟨0, fun hh => absurd hh h⟩
    have hlt := run_lt (I := I) wf w lb e u k
    have hs1 : Opt.run I c e u (m + 1) = Opt.step I c (Opt.run I c0 e u k) := by rw [Opt.run, h]
    have hs2 : Opt.run I c e u (m + 2) = Opt.step I c (Opt.step I c (Opt.run I c0 e u k)) := by
      rw [Opt.run, hs1]
    have hs0 : Opt.run I c0 e u (k + 1) = Opt.step I c0 (Opt.run I c0 e u k) := rfl
    rw [hs1, hs2, hs0]
    generalize Opt.run I c0 e u k = x at *
    obtain ⟨a, e1, u1⟩ := x
    cases a with
    | none => exact ⟨1, fun _ => ⟨Or.inl rfl, hs1⟩⟩
    | some l =>
      rcases result_step (I := I) r wf w nc lb (hlt l rfl) e1 u1 with h1 | ⟨h1, h2, h3⟩
      · exact ⟨1, fun _ => ⟨Or.inl rfl, by rw [hs1, h1]⟩⟩
      · exact ⟨2, fun _ => ⟨Or.inr ⟨rfl, by rw [h2, h1], h3⟩, by rw [hs2, h1]⟩⟩
  obtain ⟨g, hg⟩ := Classical.skolem.1 (fun k => Classical.skolem.1 (key k))
  let f : Nat → Nat := fun k => Nat.rec 0 (fun k m => m + g k m) k
  have hf : ∀ k, f (k + 1) = f k + g k (f k) := fun _ => rfl
  have hrun : ∀ k, Opt.run I c e u (f k) = Opt.run I c0 e u k := by
    intro k
    induction k with
    | zero => show Opt.run I c e u 0 = _; rw [Opt.run, Opt.run, r.entry]
    | succ k ih => rw [hf]; exact (hg k (f k) ih).2
  refine ⟨f, rfl, ?_, hrun⟩
  intro k
  rw [hf]
  rcases (hg k (f k) (hrun k)).1 with h | ⟨h1, h2, h3⟩
  · exact Or.inl (by rw [h])
  · exact Or.inr ⟨by rw [h1], by rw [h1]; exact h2, h3⟩

end

end Verif.Opt
