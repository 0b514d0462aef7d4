import Verif.Harness.Spec
/-!
# Lemmas: comparisons, sorting, shards, parsing, manifests
-/

namespace Verif.Harness

/-! ## Comparisons -/

section Cmp
variable {α : Type} {cmp : α → α → Ordering}

theorem TotalPreorder.refl (h : TotalPreorder cmp) (a : α) : cmp a a = .eq := by
  have := h.swap a a
  cases e : cmp a a <;> rw [e] at this <;> simp at this ⊢

theorem TotalPreorder.lt_gt (h : TotalPreorder cmp) {a b : α} : cmp a b = .lt ↔ cmp b a = .gt := by
  rw [h.swap a b]; cases cmp a b <;> simp

theorem TotalPreorder.eq_comm (h : TotalPreorder cmp) {a b : α} : cmp a b = .eq ↔ cmp b a = .eq := by
  rw [h.swap a b]; cases cmp a b <;> simp

theorem TotalPreorder.antisymm (h : TotalPreorder cmp) {a b : α} (h1 : cmp a b ≠ .gt)
    (h2 : cmp b a ≠ .gt) : cmp a b = .eq := by
  rw [h.swap a b] at h2
  cases e : cmp a b <;> rw [e] at h1 h2 <;> simp at h1 h2 ⊢

theorem TotalPreorder.lt_of_lt_le (h : TotalPreorder cmp) {a b c : α} (h1 : cmp a b = .lt)
    (h2 : cmp b c ≠ .gt) : cmp a c = .lt := by
  rw [h.lt_gt]
  refine Classical.byContradiction fun hn => ?_
  have := h.trans b c a h2 hn
  rw [h.lt_gt] at h1
  exact this h1

theorem TotalPreorder.lt_of_le_lt (h : TotalPreorder cmp) {a b c : α} (h1 : cmp a b ≠ .gt)
    (h2 : cmp b c = .lt) : cmp a c = .lt := by
  rw [h.lt_gt]
  refine Classical.byContradiction fun hn => ?_
  have := h.trans c a b hn h1
  rw [h.lt_gt] at h2
  exact this h2

theorem TotalPreorder.eq_trans (h : TotalPreorder cmp) {a b c : α} (h1 : cmp a b = .eq)
    (h2 : cmp b c = .eq) : cmp a c = .eq := by
  refine h.antisymm (h.trans a b c (by simp [h1]) (by simp [h2]))
    (h.trans c b a ?_ ?_)
  · simp [h.eq_comm.1 h2]
  · simp [h.eq_comm.1 h1]

theorem TotalPreorder.eq_congr (h : TotalPreorder cmp) {a b c : α} (h1 : cmp a b = .eq) :
    cmp a c = .eq ↔ cmp b c = .eq :=
  ⟨fun h2 => h.eq_trans (h.eq_comm.1 h1) h2, fun h2 => h.eq_trans h1 h2⟩

theorem tp_nat : TotalPreorder (fun a b : Nat => compare a b) where
  swap a b := (Nat.compare_swap a b).symm
  trans a b c h1 h2 := by
    rw [Ne, Nat.compare_eq_gt] at *; omega

theorem tp_bool : TotalPreorder (fun a b : Bool => cmpBool b a) where
  swap a b := by cases a <;> cases b <;> rfl
  trans a b c := by cases a <;> cases b <;> cases c <;> simp [cmpBool]

theorem tp_on {β : Type} {c : β → β → Ordering} (h : TotalPreorder c) (f : α → β) :
    TotalPreorder (fun a b => c (f a) (f b)) where
  swap a b := h.swap _ _
  trans a b d := h.trans _ _ _

theorem tp_then {c d : α → α → Ordering} (h1 : TotalPreorder c) (h2 : TotalPreorder d) :
    TotalPreorder (fun a b => (c a b).then (d a b)) where
  swap a b := by
    rw [h1.swap a b, h2.swap a b]
    cases c a b <;> simp [Ordering.then]
  trans x y z hxy hyz := by
    have aux : ∀ a b, ((c a b).then (d a b) ≠ .gt) ↔
        (c a b = .lt ∨ (c a b = .eq ∧ d a b ≠ .gt)) := by
      intro a b; cases c a b <;> simp [Ordering.then]
    rw [aux] at hxy hyz ⊢
    rcases hxy with hxy | ⟨hxy, hxy'⟩
    · left
      rcases hyz with hyz | ⟨hyz, _⟩
      · exact h1.lt_of_lt_le hxy (by simp [hyz])
      · exact h1.lt_of_lt_le hxy (by simp [hyz])
    · rcases hyz with hyz | ⟨hyz, hyz'⟩
      · left; exact h1.lt_of_le_lt (by simp [hxy]) hyz
      · right; exact ⟨h1.eq_trans hxy hyz, h2.trans _ _ _ hxy' hyz'⟩

theorem cmpList_ne_gt_cons {a b : α} {as bs : List α} :
    (cmpList cmp (a :: as) (b :: bs) ≠ .gt) ↔
      (cmp a b = .lt ∨ (cmp a b = .eq ∧ cmpList cmp as bs ≠ .gt)) := by
  simp only [cmpList]; cases cmp a b <;> simp [Ordering.then]

theorem tp_list (h : TotalPreorder cmp) : TotalPreorder (cmpList cmp) where
  swap a := by
    induction a with
    | nil => intro b; cases b <;> rfl
    | cons x xs ih =>
      intro b
      cases b with
      | nil => rfl
      | cons y ys =>
        simp only [cmpList]
        rw [h.swap x y, ih ys]
        cases cmp x y <;> simp [Ordering.then]
  trans a := by
    induction a with
    | nil => intro b c _ _; cases c <;> simp [cmpList]
    | cons x xs ih =>
      intro b c hab hbc
      cases b with
      | nil => simp [cmpList] at hab
      | cons y ys =>
        cases c with
        | nil => simp [cmpList] at hbc
        | cons z zs =>
          rw [cmpList_ne_gt_cons] at hab hbc ⊢
          rcases hab with hab | ⟨hab, hab'⟩
          · left
            rcases hbc with hbc | ⟨hbc, _⟩
            · exact h.lt_of_lt_le hab (by simp [hbc])
            · exact h.lt_of_lt_le hab (by simp [hbc])
          · rcases hbc with hbc | ⟨hbc, hbc'⟩
            · left; exact h.lt_of_le_lt (by simp [hab]) hbc
            · right; exact ⟨h.eq_trans hab hbc, ih _ _ hab' hbc'⟩

theorem then_eq {a b : Ordering} : a.then b = .eq ↔ a = .eq ∧ b = .eq := by
  cases a <;> simp [Ordering.then]

theorem cmpList_eq (h : ∀ a b, cmp a b = .eq ↔ a = b) (as bs : List α) :
    cmpList cmp as bs = .eq ↔ as = bs := by
  induction as generalizing bs with
  | nil => cases bs <;> simp [cmpList]
  | cons x xs ih =>
    cases bs with
    | nil => simp [cmpList]
    | cons y ys => simp only [cmpList, then_eq, h, ih, List.cons.injEq]

theorem tp_str : TotalPreorder cmpStr := tp_list tp_nat

theorem cmpStr_eq (a b : Str) : cmpStr a b = .eq ↔ a = b :=
  cmpList_eq (fun _ _ => Nat.compare_eq_eq) a b

/-! ## Stable sorting -/

theorem insertBy_perm (x : α) (l : List α) : (insertBy cmp x l).Perm (x :: l) := by
  induction l with
  | nil => exact .refl _
  | cons y ys ih =>
    unfold insertBy
    split
    · exact (List.Perm.cons y ih).trans (List.Perm.swap x y ys)
    · exact .refl _

theorem sortBy_perm (l : List α) : (sortBy cmp l).Perm l := by
  induction l with
  | nil => exact .refl _
  | cons x xs ih => exact (insertBy_perm x _).trans (List.Perm.cons x ih)

theorem insertBy_sorted (h : TotalPreorder cmp) (x : α) {l : List α}
    (hl : l.Pairwise (fun a b => cmp a b ≠ .gt)) :
    (insertBy cmp x l).Pairwise (fun a b => cmp a b ≠ .gt) := by
  induction l with
  | nil => simp [insertBy]
  | cons y ys ih =>
    rw [List.pairwise_cons] at hl
    unfold insertBy
    split
    · rename_i hg
      rw [List.pairwise_cons]
      refine ⟨fun z hz => ?_, ih hl.2⟩
      rcases List.mem_cons.1 ((insertBy_perm x ys).mem_iff.1 hz) with rfl | hz
      · rw [Ne, ← h.lt_gt]; simp [hg]
      · exact hl.1 z hz
    · rename_i hg
      rw [List.pairwise_cons, List.pairwise_cons]
      refine ⟨fun z hz => ?_, hl⟩
      rcases List.mem_cons.1 hz with rfl | hz
      · exact hg
      · exact h.trans _ _ _ hg (hl.1 z hz)

theorem sortBy_sorted (h : TotalPreorder cmp) (l : List α) :
    (sortBy cmp l).Pairwise (fun a b => cmp a b ≠ .gt) := by
  induction l with
  | nil => exact .nil
  | cons x xs ih => exact insertBy_sorted h x ih

theorem insertBy_stable (h : TotalPreorder cmp) (x z : α) (l : List α) :
    (insertBy cmp x l).filter (fun a => cmp a z == .eq) =
      (x :: l).filter (fun a => cmp a z == .eq) := by
  induction l with
  | nil => rfl
  | cons y ys ih =>
    unfold insertBy
    split
    · rename_i hg
      rw [List.filter_cons, ih]
      by_cases hx : cmp x z = .eq
      · have hy : cmp y z ≠ .eq := by
          intro hy
          have := h.eq_trans hx (h.eq_comm.1 hy)
          rw [hg] at this; cases this
        simp [List.filter_cons, hx, hy]
      · simp [List.filter_cons, hx]
    · rfl

theorem sortBy_stable (h : TotalPreorder cmp) (z : α) (l : List α) :
    (sortBy cmp l).filter (fun a => cmp a z == .eq) = l.filter (fun a => cmp a z == .eq) := by
  induction l with
  | nil => rfl
  | cons x xs ih =>
    simp only [sortBy]
    rw [insertBy_stable h, List.filter_cons, List.filter_cons, ih]

theorem sorted_unique (h : TotalPreorder cmp) : ∀ (l₁ l₂ : List α),
    l₁.Pairwise (fun a b => cmp a b ≠ .gt) → l₂.Pairwise (fun a b => cmp a b ≠ .gt) →
    (∀ x, l₁.countP (fun a => cmp a x == .eq) = l₂.countP (fun a => cmp a x == .eq)) →
    AllPairs (fun a b => cmp a b = .eq) l₁ l₂
  | [], [], _, _, _ => .nil
  | [], b :: bs, _, _, hc => by
    have := hc b
    simp [List.countP_cons, h.refl] at this
  | a :: as, [], _, _, hc => by
    have := hc a
    simp [List.countP_cons, h.refl] at this
  | a :: as, b :: bs, h1, h2, hc => by
    rw [List.pairwise_cons] at h1 h2
    have le1 : ∀ x ∈ b :: bs, cmp b x ≠ .gt := by
      intro x hx
      rcases List.mem_cons.1 hx with rfl | hx
      · simp [h.refl]
      · exact h2.1 x hx
    have le2 : ∀ x ∈ a :: as, cmp a x ≠ .gt := by
      intro x hx
      rcases List.mem_cons.1 hx with rfl | hx
      · simp [h.refl]
      · exact h1.1 x hx
    have hab : cmp a b = .eq := by
      have e1 := hc a
      have e2 := hc b
      have p1 : 0 < (a :: as).countP (fun x => cmp x a == .eq) :=
        List.countP_pos_iff.2 ⟨a, List.mem_cons_self .., by simp [h.refl]⟩
      have p2 : 0 < (b :: bs).countP (fun x => cmp x b == .eq) :=
        List.countP_pos_iff.2 ⟨b, List.mem_cons_self .., by simp [h.refl]⟩
      rw [e1] at p1
      rw [← e2] at p2
      obtain ⟨x, hx, ex⟩ := List.countP_pos_iff.1 p1
      obtain ⟨y, hy, ey⟩ := List.countP_pos_iff.1 p2
      simp only [beq_iff_eq] at ex ey
      refine h.antisymm ?_ ?_
      · exact h.trans a y b (le2 y hy) (by simp [ey])
      · exact h.trans b x a (le1 x hx) (by simp [ex])
    refine .cons hab (sorted_unique h as bs h1.2 h2.2 fun x => ?_)
    have := hc x
    rw [List.countP_cons, List.countP_cons] at this
    have e : (cmp a x == .eq) = (cmp b x == .eq) := by
      rw [Bool.eq_iff_iff]; simp only [beq_iff_eq]; exact h.eq_congr hab
    rw [e] at this
    omega

theorem allPairs_eq {r : α → α → Prop} (h : ∀ a b, r a b → a = b) {l₁ l₂ : List α}
    (hp : AllPairs r l₁ l₂) : l₁ = l₂ := by
  induction hp with
  | nil => rfl
  | cons hab _ ih => rw [h _ _ hab, ih]

theorem AllPairs.imp {r s : α → α → Prop} (h : ∀ a b, r a b → s a b) {l₁ l₂ : List α}
    (hp : AllPairs r l₁ l₂) : AllPairs s l₁ l₂ := by
  induction hp with
  | nil => exact .nil
  | cons hab _ ih => exact .cons (h _ _ hab) ih

theorem sortBy_congr (h : TotalPreorder cmp) {l₁ l₂ : List α} (hp : l₁.Perm l₂) :
    AllPairs (fun a b => cmp a b = .eq) (sortBy cmp l₁) (sortBy cmp l₂) := by
  refine sorted_unique h _ _ (sortBy_sorted h _) (sortBy_sorted h _) fun x => ?_
  exact List.Perm.countP_eq _ ((sortBy_perm l₁).trans (hp.trans (sortBy_perm l₂).symm))

theorem sortBy_eq_iff (h : TotalPreorder cmp) (he : ∀ a b, cmp a b = .eq ↔ a = b)
    {l₁ l₂ : List α} : sortBy cmp l₁ = sortBy cmp l₂ ↔ l₁.Perm l₂ := by
  constructor
  · intro e
    have := (sortBy_perm (cmp := cmp) l₁).symm
    rw [e] at this
    exact this.trans (sortBy_perm l₂)
  · intro hp
    exact allPairs_eq (fun a b => (he a b).1) (sortBy_congr h hp)

end Cmp

/-! ## Labels and diagnostics -/

theorem tp_label : TotalPreorder labelCmp :=
  tp_then (tp_on tp_bool Label.isPrimary)
    (tp_then (tp_on tp_nat (fun l : Label => l.span.file))
      (tp_then (tp_on tp_nat (fun l : Label => l.span.range.start))
        (tp_then (tp_on tp_nat (fun l : Label => l.span.range.stop))
          (tp_on tp_str Label.message))))

theorem cmpBool_eq (a b : Bool) : cmpBool a b = .eq ↔ a = b := by
  cases a <;> cases b <;> simp [cmpBool]

theorem label_ext (a b : Label) : a = b ↔ a.isPrimary = b.isPrimary ∧ a.span.file = b.span.file ∧
    a.span.range.start = b.span.range.start ∧ a.span.range.stop = b.span.range.stop ∧
    a.message = b.message := by
  obtain ⟨⟨f, s, e⟩, m, p⟩ := a
  obtain ⟨⟨f', s', e'⟩, m', p'⟩ := b
  simp only [Label.mk.injEq, Span.mk.injEq, TextRange.mk.injEq]
  constructor
  · rintro ⟨⟨rfl, rfl, rfl⟩, rfl, rfl⟩; simp
  · rintro ⟨rfl, rfl, rfl, rfl, rfl⟩; simp

theorem labelCmp_eq (a b : Label) : labelCmp a b = .eq ↔ a = b := by
  unfold labelCmp
  rw [label_ext]
  simp only [then_eq, cmpBool_eq, Nat.compare_eq_eq, cmpStr_eq]
  constructor
  · rintro ⟨h, h2⟩; exact ⟨h.symm, h2⟩
  · rintro ⟨h, h2⟩; exact ⟨h.symm, h2⟩

theorem cmpZip_of_length : ∀ (as bs : List Label), as.length = bs.length →
    cmpZip as bs = cmpList labelCmp as bs
  | [], [], _ => rfl
  | a :: as, b :: bs, h => by
    unfold cmpZip cmpList
    rw [cmpZip_of_length as bs (by simpa using h)]
    cases labelCmp a b <;> rfl

theorem compareLabels_as (a b : List Label) : compareLabels a b =
    (compare (sortBy labelCmp a).length (sortBy labelCmp b).length).then
      (cmpList labelCmp (sortBy labelCmp a) (sortBy labelCmp b)) := by
  unfold compareLabels
  dsimp only
  by_cases h : (sortBy labelCmp a).length = (sortBy labelCmp b).length
  · rw [cmpZip_of_length _ _ h]
  · have : compare (sortBy labelCmp a).length (sortBy labelCmp b).length ≠ .eq := by
      rwa [Ne, Nat.compare_eq_eq]
    cases e : compare (sortBy labelCmp a).length (sortBy labelCmp b).length with
    | lt => rfl
    | gt => rfl
    | eq => exact absurd e this

theorem tp_labels : TotalPreorder compareLabels := by
  have e : compareLabels = fun a b =>
      (compare (sortBy labelCmp a).length (sortBy labelCmp b).length).then
        (cmpList labelCmp (sortBy labelCmp a) (sortBy labelCmp b)) := by
    funext a b; exact compareLabels_as a b
  rw [e]
  exact tp_then (tp_on tp_nat (fun l : List Label => (sortBy labelCmp l).length))
    (tp_on (tp_list tp_label) (sortBy labelCmp))

theorem compareLabels_eq (a b : List Label) : compareLabels a b = .eq ↔ a.Perm b := by
  rw [compareLabels_as, then_eq, Nat.compare_eq_eq, cmpList_eq labelCmp_eq]
  rw [← sortBy_eq_iff tp_label labelCmp_eq]
  exact ⟨fun h => h.2, fun h => ⟨by rw [h], h⟩⟩

theorem tp_notes : TotalPreorder compareNotes :=
  tp_then (tp_on tp_nat (fun l : List Str => (sortBy cmpStr l).length))
    (tp_on (tp_list tp_str) (sortBy cmpStr))

theorem compareNotes_eq (a b : List Str) : compareNotes a b = .eq ↔ a.Perm b := by
  unfold compareNotes
  dsimp only
  rw [then_eq, Nat.compare_eq_eq, cmpList_eq cmpStr_eq, ← sortBy_eq_iff tp_str cmpStr_eq]
  exact ⟨fun h => h.2, fun h => ⟨by rw [h], h⟩⟩

theorem tp_diagnostic : TotalPreorder diagnosticCmp :=
  tp_then (tp_on tp_nat (fun d : Diagnostic => d.primary.file))
    (tp_then (tp_on tp_nat (fun d : Diagnostic => d.primary.range.start))
      (tp_then (tp_on tp_nat (fun d : Diagnostic => d.primary.range.stop))
        (tp_then (tp_on tp_str Diagnostic.code)
          (tp_then (tp_on tp_nat (fun d : Diagnostic => severityRank d.severity))
            (tp_then (tp_on tp_str Diagnostic.message)
              (tp_then (tp_on tp_labels Diagnostic.labels)
                (tp_on tp_notes Diagnostic.notes)))))))

theorem severityRank_inj (a b : Severity) : severityRank a = severityRank b ↔ a = b := by
  cases a <;> cases b <;> simp [severityRank]

theorem span_ext (a b : Span) : a = b ↔ a.file = b.file ∧ a.range.start = b.range.start ∧
    a.range.stop = b.range.stop := by
  obtain ⟨f, s, e⟩ := a
  obtain ⟨f', s', e'⟩ := b
  simp

theorem diagnosticCmp_eq (a b : Diagnostic) : diagnosticCmp a b = .eq ↔ SameDiagnostic a b := by
  unfold diagnosticCmp SameDiagnostic
  simp only [then_eq, Nat.compare_eq_eq, cmpStr_eq, compareLabels_eq, compareNotes_eq,
    severityRank_inj, span_ext a.primary b.primary]
  constructor
  · rintro ⟨h1, h2, h3, h4, h5, h6, h7, h8⟩; exact ⟨h4, h5, h6, ⟨h1, h2, h3⟩, h7, h8⟩
  · rintro ⟨h4, h5, h6, ⟨h1, h2, h3⟩, h7, h8⟩; exact ⟨h1, h2, h3, h4, h5, h6, h7, h8⟩

theorem normalize_same (d : Diagnostic) : SameDiagnostic (normalizeDiagnostic d) d :=
  ⟨rfl, rfl, rfl, rfl, sortBy_perm _, sortBy_perm _⟩

theorem normalize_eq {a b : Diagnostic} (h : SameDiagnostic a b) :
    normalizeDiagnostic a = normalizeDiagnostic b := by
  obtain ⟨h1, h2, h3, h4, h5, h6⟩ := h
  unfold normalizeDiagnostic sortLabels
  rw [(sortBy_eq_iff tp_label labelCmp_eq).2 h5, (sortBy_eq_iff tp_str cmpStr_eq).2 h6]
  cases a; cases b
  simp_all

theorem same_symm {a b : Diagnostic} (h : SameDiagnostic a b) : SameDiagnostic b a :=
  ⟨h.1.symm, h.2.1.symm, h.2.2.1.symm, h.2.2.2.1.symm, h.2.2.2.2.1.symm, h.2.2.2.2.2.symm⟩

theorem normalize_idem (d : Diagnostic) :
    normalizeDiagnostic (normalizeDiagnostic d) = normalizeDiagnostic d :=
  normalize_eq (normalize_same d)

theorem allPairs_mem_eq {r : Diagnostic → Diagnostic → Prop} {l₁ l₂ : List Diagnostic}
    (hp : AllPairs r l₁ l₂) (h : ∀ a ∈ l₁, ∀ b ∈ l₂, r a b → a = b) : l₁ = l₂ := by
  induction hp with
  | nil => rfl
  | cons hab _ ih =>
    rw [h _ (List.mem_cons_self ..) _ (List.mem_cons_self ..) hab,
      ih fun a ha b hb => h a (List.mem_cons_of_mem _ ha) b (List.mem_cons_of_mem _ hb)]

theorem tp_span : TotalPreorder spanCmp :=
  tp_then (tp_on tp_nat Span.file)
    (tp_then (tp_on tp_nat (fun s : Span => s.range.start)) (tp_on tp_nat (fun s : Span => s.range.stop)))

theorem spanCmp_eq (a b : Span) : spanCmp a b = .eq ↔ a = b := by
  unfold spanCmp; simp only [then_eq, Nat.compare_eq_eq, span_ext a b]

theorem labelOrd_as (a b : Label) : labelOrd a b = labelCmp a b := by
  unfold labelOrd labelCmp spanCmp
  cases cmpBool b.isPrimary a.isPrimary <;> simp only [Ordering.then]
  cases compare a.span.file b.span.file <;> simp only
  cases compare a.span.range.start b.span.range.start <;> simp only

theorem tp_labelOrd : TotalPreorder labelOrd := by
  have : labelOrd = labelCmp := by funext a b; exact labelOrd_as a b
  rw [this]; exact tp_label

theorem tp_diagnosticOrd : TotalPreorder diagnosticOrd :=
  tp_then (tp_on tp_nat (fun d : Diagnostic => severityRank d.severity))
    (tp_then (tp_on tp_str Diagnostic.code)
      (tp_then (tp_on tp_span Diagnostic.primary)
        (tp_then (tp_on tp_str Diagnostic.message)
          (tp_then (tp_on (tp_list tp_labelOrd) Diagnostic.labels)
            (tp_on (tp_list tp_str) Diagnostic.notes)))))

theorem diagnosticOrd_eq (a b : Diagnostic) : diagnosticOrd a b = .eq ↔ a = b := by
  unfold diagnosticOrd
  simp only [then_eq, Nat.compare_eq_eq, severityRank_inj, cmpStr_eq, spanCmp_eq,
    cmpList_eq cmpStr_eq,
    cmpList_eq (cmp := labelOrd) (fun a b => by rw [labelOrd_as]; exact labelCmp_eq a b)]
  constructor
  · rintro ⟨h1, h2, h3, h4, h5, h6⟩
    cases a; cases b; simp_all
  · rintro rfl; simp

/-! ## Shards -/

theorem applyFrom_total {α : Type} (s : Shard) (hs : 0 < s.total) (l : List α) (idx : Nat) :
    ∃ ys, applyFrom s idx l = some ys := by
  induction l generalizing idx with
  | nil => exact ⟨[], rfl⟩
  | cons x xs ih =>
    obtain ⟨ys, h⟩ := ih (idx + 1)
    unfold applyFrom Shard.includes
    rw [if_neg (by omega), h]
    exact ⟨_, rfl⟩

theorem applyFrom_cons {α : Type} {s : Shard} (hs : 0 < s.total) {x : α} {xs ys : List α} {idx : Nat}
    (h : applyFrom s idx (x :: xs) = some ys) :
    ∃ zs, applyFrom s (idx + 1) xs = some zs ∧
      ys = if idx % s.total = s.index then x :: zs else zs := by
  obtain ⟨zs, hz⟩ := applyFrom_total s hs xs (idx + 1)
  refine ⟨zs, hz, ?_⟩
  unfold applyFrom Shard.includes at h
  rw [if_neg (by omega), hz] at h
  simp only [Option.some.injEq, beq_iff_eq] at h
  exact h.symm

theorem applyFrom_get {α : Type} (s : Shard) (_hs : s.index < s.total) (l : List α) :
    ∀ (idx off : Nat) (ys : List α), off < s.total → (idx + off) % s.total = s.index →
      applyFrom s idx l = some ys → ∀ k : Nat, ys[k]? = l[off + k * s.total]? := by
  induction l with
  | nil =>
    intro idx off ys _ _ h k
    simp only [applyFrom, Option.some.injEq] at h
    subst h; simp
  | cons x xs ih =>
    intro idx off ys ho he h k
    obtain ⟨zs, hz, hy⟩ := applyFrom_cons (by omega) h
    cases off with
    | zero =>
      rw [if_pos (by simpa using he)] at hy
      subst hy
      have hz' := ih (idx + 1) (s.total - 1) zs (by omega) (by
        have : idx + 1 + (s.total - 1) = idx + s.total := by omega
        rw [this, Nat.add_mod_right]; simpa using he) hz
      cases k with
      | zero => simp
      | succ k =>
        have : 0 + (k + 1) * s.total = (s.total - 1 + k * s.total) + 1 := by
          rw [Nat.succ_mul]; omega
        rw [this, List.getElem?_cons_succ, List.getElem?_cons_succ]
        exact hz' k
    | succ off =>
      have hne : idx % s.total ≠ s.index := by
        intro e
        rw [← he] at e
        have h1 := Nat.div_add_mod idx s.total
        have h2 := Nat.div_add_mod (idx + (off + 1)) s.total
        have h3 : idx / s.total = (idx + (off + 1)) / s.total ∨
            idx / s.total < (idx + (off + 1)) / s.total := by
          have : idx / s.total ≤ (idx + (off + 1)) / s.total := Nat.div_le_div_right (by omega)
          omega
        rcases h3 with h3 | h3
        · rw [h3] at h1; omega
        · have : s.total * (idx / s.total + 1) ≤ s.total * ((idx + (off + 1)) / s.total) :=
            Nat.mul_le_mul_left _ h3
          rw [Nat.mul_add] at this
          omega
      rw [if_neg hne] at hy
      subst hy
      have := ih (idx + 1) off ys (by omega) (by rw [← he]; congr 1; omega) hz k
      rw [this]
      have : off + 1 + k * s.total = (off + k * s.total) + 1 := by omega
      rw [this, List.getElem?_cons_succ]

theorem applyFrom_sublist {α : Type} (s : Shard) (hs : 0 < s.total) (l : List α) :
    ∀ (idx : Nat) (ys : List α), applyFrom s idx l = some ys → ys.Sublist l := by
  induction l with
  | nil =>
    intro idx ys h
    simp only [applyFrom, Option.some.injEq] at h
    subst h; exact .slnil
  | cons x xs ih =>
    intro idx ys h
    obtain ⟨zs, hz, hy⟩ := applyFrom_cons hs h
    subst hy
    split
    · exact (ih _ _ hz).cons_cons x
    · exact (ih _ _ hz).cons x

theorem flatMap_insert {α : Type} (x : α) (f g : Nat → List α) (j : Nat) : ∀ n, j < n →
    f j = x :: g j → (∀ i, i < n → i ≠ j → f i = g i) →
    ((List.range n).flatMap f).Perm (x :: (List.range n).flatMap g) := by
  intro n
  induction n with
  | zero => intro h; omega
  | succ n ih =>
    intro hj hx ho
    rw [List.range_succ, List.flatMap_append, List.flatMap_append]
    simp only [List.flatMap_cons, List.flatMap_nil, List.append_nil]
    by_cases e : j = n
    · subst e
      rw [hx]
      have : (List.range j).flatMap f = (List.range j).flatMap g := by
        rw [List.flatMap_def, List.flatMap_def]
        congr 1
        refine List.map_congr_left fun i hi => ?_
        rw [List.mem_range] at hi
        exact ho i (by omega) (by omega)
      rw [this]
      exact List.perm_middle
    · rw [ho n (by omega) (fun h => e h.symm)]
      exact (ih (by omega) hx fun i hi hne => ho i (by omega) hne).append_right _

theorem applyFrom_partition {α : Type} (n : Nat) (hn : 0 < n) (l : List α) : ∀ idx,
    ((List.range n).flatMap fun i => (applyFrom ⟨i, n⟩ idx l).getD []).Perm l := by
  induction l with
  | nil =>
    intro idx
    have : ((List.range n).flatMap fun i => (applyFrom (α := α) ⟨i, n⟩ idx []).getD []) = [] := by
      simp [applyFrom]
    rw [this]
  | cons x xs ih =>
    intro idx
    refine (flatMap_insert x _ (fun i => (applyFrom ⟨i, n⟩ (idx + 1) xs).getD []) (idx % n) n
      (Nat.mod_lt _ hn) ?_ ?_).trans (List.Perm.cons x (ih (idx + 1)))
    · obtain ⟨ys, hy⟩ := applyFrom_total ⟨idx % n, n⟩ hn (x :: xs) idx
      obtain ⟨zs, hz, e⟩ := applyFrom_cons hn hy
      rw [if_pos rfl] at e
      simp only [hy, hz, Option.getD_some, e]
    · intro i _ hi
      obtain ⟨ys, hy⟩ := applyFrom_total ⟨i, n⟩ hn (x :: xs) idx
      obtain ⟨zs, hz, e⟩ := applyFrom_cons hn hy
      rw [if_neg (fun h => hi h.symm)] at e
      simp only [hy, hz, Option.getD_some, e]

/-! ## Parsing shards -/

theorem foldl_ge (cs : List Nat) : ∀ acc, acc ≤ cs.foldl (fun n c => n * 10 + (c - 48)) acc := by
  induction cs with
  | nil => intro acc; exact Nat.le_refl _
  | cons c cs ih =>
    intro acc
    rw [List.foldl_cons]
    exact Nat.le_trans (by omega) (ih _)

theorem usizeLoop_spec (cs : List Nat) : ∀ acc n, acc < usizeLim →
    (usizeLoop acc cs = some n ↔ (∀ c ∈ cs, 48 ≤ c ∧ c ≤ 57) ∧
      cs.foldl (fun n c => n * 10 + (c - 48)) acc = n ∧ n < usizeLim) := by
  induction cs with
  | nil =>
    intro acc n h
    simp only [usizeLoop, Option.some.injEq, List.foldl_nil]
    constructor
    · rintro rfl; exact ⟨by simp, rfl, h⟩
    · rintro ⟨_, h, _⟩; exact h
  | cons c cs ih =>
    intro acc n h
    unfold usizeLoop usizeStep
    by_cases hc : 48 ≤ c ∧ c ≤ 57
    · rw [if_pos hc]
      by_cases h2 : acc * 10 + (c - 48) < usizeLim
      · rw [if_pos (by omega), if_pos h2]
        dsimp only
        rw [ih _ _ h2, List.foldl_cons]
        simp [hc]
      · have : ¬ ((∀ d ∈ c :: cs, 48 ≤ d ∧ d ≤ 57) ∧
            (c :: cs).foldl (fun n c => n * 10 + (c - 48)) acc = n ∧ n < usizeLim) := by
          rintro ⟨_, e, hn⟩
          rw [List.foldl_cons] at e
          have := foldl_ge cs (acc * 10 + (c - 48))
          omega
        simp only [this, iff_false]
        rw [if_neg h2]
        split
        · simp
        · rename_i e; split at e <;> cases e
    · rw [if_neg hc]
      constructor
      · intro e; cases e
      · rintro ⟨e, _⟩; exact absurd (e c (List.mem_cons_self ..)) hc

theorem parseUsize_spec (s : Str) (n : Nat) : parseUsize s = some n ↔ Denotes s n := by
  have key := fun cs => usizeLoop_spec cs 0 n (by unfold usizeLim; omega)
  have lim : usizeLim = 2 ^ 64 := rfl
  constructor
  · intro h
    match s, h with
    | [], h => cases h
    | [c], h =>
      simp only [parseUsize] at h
      split at h
      · cases h
      · obtain ⟨h1, h2, h3⟩ := (key [c]).1 h
        exact ⟨[c], .inl rfl, ⟨by simp, h1⟩, h2, lim ▸ h3⟩
    | c :: d :: cs, h =>
      simp only [parseUsize] at h
      split at h
      · rename_i hc
        obtain ⟨h1, h2, h3⟩ := (key (d :: cs)).1 h
        exact ⟨d :: cs, .inr (by rw [hc]), ⟨by simp, h1⟩, h2, lim ▸ h3⟩
      · obtain ⟨h1, h2, h3⟩ := (key (c :: d :: cs)).1 h
        exact ⟨c :: d :: cs, .inl rfl, ⟨by simp, h1⟩, h2, lim ▸ h3⟩
  · rintro ⟨d, hs, ⟨hne, hd⟩, hv, hl⟩
    have hk := (key d).2 ⟨hd, hv, lim ▸ hl⟩
    rcases hs with rfl | rfl
    · match s, hne, hd, hk with
      | [c], _, hd, hk =>
        have := hd c (List.mem_cons_self ..)
        simp only [parseUsize]
        rw [if_neg (by omega)]; exact hk
      | c :: e :: cs, _, hd, hk =>
        have := hd c (List.mem_cons_self ..)
        simp only [parseUsize]
        rw [if_neg (by omega)]; exact hk
    · match d, hne, hk with
      | c :: cs, _, hk => simpa only [parseUsize, if_true] using hk

theorem splitOnce_spec (s a b : Str) :
    splitOnce s = some (a, b) ↔ s = a ++ 47 :: b ∧ 47 ∉ a := by
  induction s generalizing a with
  | nil => simp [splitOnce]
  | cons c cs ih =>
    unfold splitOnce
    by_cases hc : c = 47
    · rw [if_pos hc]
      simp only [Option.some.injEq, Prod.mk.injEq]
      constructor
      · rintro ⟨rfl, rfl⟩; simp [hc]
      · rintro ⟨h, hn⟩
        cases a with
        | nil => simp at h; exact ⟨rfl, h.2⟩
        | cons x xs =>
          simp only [List.cons_append, List.cons.injEq] at h
          exact absurd (by rw [← h.1, hc]; exact List.mem_cons_self ..) hn
    · rw [if_neg hc]
      cases a with
      | nil =>
        have : ¬ (c :: cs = [] ++ 47 :: b ∧ 47 ∉ ([] : Str)) := by
          rintro ⟨h, _⟩; simp at h; exact hc h.1
        simp only [this, iff_false]
        split <;> simp
      | cons x xs =>
        have := ih xs
        cases h : splitOnce cs with
        | none =>
          rw [h] at this
          simp only [reduceCtorEq, false_iff] at this ⊢
          rintro ⟨h1, h2⟩
          simp only [List.cons_append, List.cons.injEq] at h1
          exact this ⟨h1.2, fun hm => h2 (List.mem_cons_of_mem _ hm)⟩
        | some p =>
          obtain ⟨p, q⟩ := p
          rw [h] at this
          simp only [Option.some.injEq, Prod.mk.injEq, List.cons.injEq, List.cons_append,
            List.mem_cons, not_or] at this ⊢
          constructor
          · rintro ⟨⟨rfl, rfl⟩, rfl⟩
            have := this.1 ⟨rfl, rfl⟩
            exact ⟨⟨rfl, this.1⟩, fun e => hc e.symm, this.2⟩
          · rintro ⟨⟨rfl, h1⟩, _, h2⟩
            have := this.2 ⟨h1, h2⟩
            exact ⟨⟨rfl, this.1⟩, this.2⟩

/-! ## Manifests -/

/-- What an accepted entry becomes. -/
def entryOf (P : Patterns) (e : RawEntry) : Option Entry :=
  match e.matcher P, e.status with
  | some m, some k => some ⟨m, ⟨k, e.reason, e.trackingIssue⟩⟩
  | _, _ => none

def rank : Matcher → Nat
  | .exact _ => 0
  | .glob _ => 1
  | .regex _ => 2

def ofRank (P : Patterns) (r : Nat) (e : RawEntry) : Option Entry :=
  (entryOf P e).filter (fun en => rank en.matcher == r)

theorem loop_spec (P : Patterns) (es : List RawEntry) : ∀ acc x,
    fromManifestLoop P acc es = some x →
      x.exact = acc.exact ++ es.filterMap (ofRank P 0) ∧
      x.globs = acc.globs ++ es.filterMap (ofRank P 1) ∧
      x.regexes = acc.regexes ++ es.filterMap (ofRank P 2) := by
  induction es with
  | nil =>
    intro acc x h
    simp only [fromManifestLoop, Option.some.injEq] at h
    subst h; simp
  | cons e es ih =>
    intro acc x h
    unfold fromManifestLoop at h
    cases hm : e.matcher P with
    | none => rw [hm] at h; cases h
    | some m =>
      rw [hm] at h
      dsimp only at h
      cases hk : e.status with
      | none => rw [hk] at h; cases h
      | some k =>
        rw [hk] at h
        dsimp only at h
        have he : entryOf P e = some ⟨m, ⟨k, e.reason, e.trackingIssue⟩⟩ := by
          unfold entryOf; rw [hm, hk]
        cases m with
        | exact p =>
          obtain ⟨h1, h2, h3⟩ := ih _ _ h
          simp [List.filterMap_cons, ofRank, he, rank, h1, h2, h3, Option.filter]
        | glob p =>
          obtain ⟨h1, h2, h3⟩ := ih _ _ h
          simp [List.filterMap_cons, ofRank, he, rank, h1, h2, h3, Option.filter]
        | regex p =>
          obtain ⟨h1, h2, h3⟩ := ih _ _ h
          simp [List.filterMap_cons, ofRank, he, rank, h1, h2, h3, Option.filter]

theorem matcher_spec (P : Patterns) (e : RawEntry) (m : Matcher) (k : Kind) :
    (e.matcher P = some m ∧ e.status = some k) ↔ Accepts P e m k := by
  obtain ⟨i, g, r, st, re, ti⟩ := e
  constructor
  · rintro ⟨hm, hk⟩
    simp only at hk
    subst hk
    unfold RawEntry.matcher at hm
    cases i with
    | some i =>
      cases g with
      | some g => cases r <;> simp at hm
      | none =>
        cases r with
        | some r => simp at hm
        | none =>
          simp at hm; subst hm
          exact .exact rfl rfl rfl rfl
    | none =>
      cases g with
      | some g =>
        cases r with
        | some r => simp at hm
        | none =>
          simp at hm
          obtain ⟨h1, rfl⟩ := hm
          exact .glob rfl rfl rfl h1 rfl
      | none =>
        cases r with
        | none => simp at hm
        | some r =>
          simp at hm
          obtain ⟨h1, rfl⟩ := hm
          exact .regex rfl rfl rfl h1 rfl
  · intro h
    cases h with
    | exact h1 h2 h3 h4 =>
      simp only at h1 h2 h3 h4; subst h1 h2 h3 h4
      exact ⟨by simp [RawEntry.matcher], rfl⟩
    | glob h1 h2 h3 h4 h5 =>
      simp only at h1 h2 h3 h5; subst h1 h2 h3 h5
      exact ⟨by simp [RawEntry.matcher, h4], rfl⟩
    | regex h1 h2 h3 h4 h5 =>
      simp only at h1 h2 h3 h5; subst h1 h2 h3 h5
      exact ⟨by simp [RawEntry.matcher, h4], rfl⟩

theorem loop_some (P : Patterns) (es : List RawEntry) : ∀ acc,
    (fromManifestLoop P acc es).isSome ↔ ∀ e ∈ es, ∃ m k, Accepts P e m k := by
  induction es with
  | nil => intro acc; simp [fromManifestLoop]
  | cons e es ih =>
    intro acc
    unfold fromManifestLoop
    rw [List.forall_mem_cons]
    cases hm : e.matcher P with
    | none =>
      simp only [Option.isSome_none, Bool.false_eq_true, false_iff]
      rintro ⟨⟨m, k, h⟩, _⟩
      rw [← matcher_spec, hm] at h; cases h.1
    | some m =>
      dsimp only
      cases hk : e.status with
      | none =>
        simp only [Option.isSome_none, Bool.false_eq_true, false_iff]
        rintro ⟨⟨m, k, h⟩, _⟩
        rw [← matcher_spec, hk] at h; cases h.2
      | some k =>
        dsimp only
        have : ∃ m k, Accepts P e m k := ⟨m, k, (matcher_spec P e m k).1 ⟨hm, hk⟩⟩
        cases m <;> simp only [ih, this, true_and]

/-- An accepted entry becomes an entry that matches exactly where the raw entry applies. -/
theorem accepted_entry (P : Patterns) (e : RawEntry) {m : Matcher} {k : Kind} (h : Accepts P e m k) :
    entryOf P e = some ⟨m, ⟨k, e.reason, e.trackingIssue⟩⟩ ∧ e.status = some k ∧
    ∀ id r, AppliesAt P e id r ↔ (rank m = r ∧ m.matches P id = true) := by
  obtain ⟨hm, hk⟩ := (matcher_spec P e m k).2 h
  refine ⟨by unfold entryOf; rw [hm, hk], hk, fun id r => ?_⟩
  cases h with
  | exact h1 h2 h3 h4 =>
    constructor
    · intro ha
      cases ha with
      | exact h => rw [h1] at h; cases h; exact ⟨rfl, by simp [Matcher.matches]⟩
      | glob h _ => rw [h2] at h; cases h
      | regex h _ => rw [h3] at h; cases h
    · rintro ⟨rfl, h⟩
      simp only [Matcher.matches, beq_iff_eq] at h
      exact .exact (by rw [h1, h])
  | glob h1 h2 h3 h4 h5 =>
    constructor
    · intro ha
      cases ha with
      | exact h => rw [h1] at h; cases h
      | glob h h' => rw [h2] at h; cases h; exact ⟨rfl, h'⟩
      | regex h _ => rw [h3] at h; cases h
    · rintro ⟨rfl, h⟩; exact .glob h2 h
  | regex h1 h2 h3 h4 h5 =>
    constructor
    · intro ha
      cases ha with
      | exact h => rw [h1] at h; cases h
      | glob h _ => rw [h2] at h; cases h
      | regex h h' => rw [h3] at h; cases h; exact ⟨rfl, h'⟩
    · rintro ⟨rfl, h⟩; exact .regex h3 h

theorem lookupIn_none (P : Patterns) (id : Str) (r : Nat) (es : List RawEntry)
    (hacc : ∀ e ∈ es, ∃ m k, Accepts P e m k) :
    lookupIn P id (es.filterMap (ofRank P r)) = none ↔ ∀ e ∈ es, ¬ AppliesAt P e id r := by
  induction es with
  | nil => simp [lookupIn]
  | cons e es ih =>
    rw [List.forall_mem_cons] at hacc
    obtain ⟨⟨m, k, h⟩, hacc⟩ := hacc
    obtain ⟨h1, _, h2⟩ := accepted_entry P e h
    rw [List.filterMap_cons, List.forall_mem_cons, h2]
    by_cases hr : rank m = r
    · have : ofRank P r e = some ⟨m, ⟨k, e.reason, e.trackingIssue⟩⟩ := by
        simp [ofRank, h1, hr]
      rw [this]
      simp only [lookupIn]
      by_cases hm : m.matches P id = true
      · simp [hm, hr]
      · simp [hm, ih hacc]
    · have : ofRank P r e = none := by simp [ofRank, h1, hr]
      rw [this]
      simp [hr, ih hacc]

theorem lookupIn_some (P : Patterns) (id : Str) (r : Nat) (es : List RawEntry)
    (hacc : ∀ e ∈ es, ∃ m k, Accepts P e m k) {a : Applied}
    (hl : lookupIn P id (es.filterMap (ofRank P r)) = some a) :
    ∃ (i : Nat) (e : RawEntry) (k : Kind), es[i]? = some e ∧ AppliesAt P e id r ∧ e.status = some k ∧
      a = ⟨⟨k, e.reason, e.trackingIssue⟩, true⟩ ∧
      ∀ (j : Nat) (f : RawEntry), es[j]? = some f → AppliesAt P f id r → i ≤ j := by
  induction es with
  | nil => simp [lookupIn] at hl
  | cons e es ih =>
    rw [List.forall_mem_cons] at hacc
    obtain ⟨⟨m, k, h⟩, hacc⟩ := hacc
    obtain ⟨h1, h3, h2⟩ := accepted_entry P e h
    rw [List.filterMap_cons] at hl
    have rest : ¬ AppliesAt P e id r → lookupIn P id (es.filterMap (ofRank P r)) = some a →
        ∃ (i : Nat) (e' : RawEntry) (k : Kind), (e :: es)[i]? = some e' ∧ AppliesAt P e' id r ∧
          e'.status = some k ∧ a = ⟨⟨k, e'.reason, e'.trackingIssue⟩, true⟩ ∧
          ∀ (j : Nat) (f : RawEntry), (e :: es)[j]? = some f → AppliesAt P f id r → i ≤ j := by
      intro hn hl
      obtain ⟨i, e', k', g1, g2, g3, g4, g5⟩ := ih hacc hl
      refine ⟨i + 1, e', k', by simpa using g1, g2, g3, g4, fun j f hj hf => ?_⟩
      cases j with
      | zero =>
        simp at hj; subst hj; exact absurd hf hn
      | succ j =>
        have := g5 j f (by simpa using hj) hf
        omega
    by_cases hr : rank m = r
    · have : ofRank P r e = some ⟨m, ⟨k, e.reason, e.trackingIssue⟩⟩ := by
        simp [ofRank, h1, hr]
      rw [this] at hl
      simp only [lookupIn] at hl
      by_cases hm : m.matches P id = true
      · rw [if_pos hm] at hl
        cases hl
        exact ⟨0, e, k, rfl, (h2 id r).2 ⟨hr, hm⟩, h3, rfl, fun j _ _ _ => Nat.zero_le j⟩
      · rw [if_neg hm] at hl
        exact rest (fun hh => hm ((h2 id r).1 hh).2) hl
    · have : ofRank P r e = none := by simp [ofRank, h1, hr]
      rw [this] at hl
      exact rest (fun hh => hr ((h2 id r).1 hh).1) hl

end Verif.Harness
