import Verif.Spans.Spec

namespace Verif.Spans

variable {T : Type} [LinearOrder T]

theorem better_iff (a b : Span T) : Better a b ↔ a < b := by
  show _ ↔ a.key < b.key
  simp only [Better, Span.key, Prod.Lex.toLex_lt_toLex, Span.len]

theorem not_better_iff (a b : Span T) : ¬ Better a b ↔ b ≤ a := by
  rw [better_iff, not_lt]

/-! ## Sorting -/

theorem mem_insertBy {A : Type} {le : A → A → Bool} {a x : A} : ∀ {l : List A},
    x ∈ insertBy le a l ↔ x = a ∨ x ∈ l
  | [] => by simp [insertBy]
  | b :: l => by
    rw [insertBy]
    split
    · simp
    · simp only [List.mem_cons, mem_insertBy (l := l)]; tauto

theorem mem_sortBy {A : Type} {le : A → A → Bool} {x : A} : ∀ {l : List A}, x ∈ sortBy le l ↔ x ∈ l
  | [] => by simp [sortBy]
  | a :: l => by rw [sortBy, mem_insertBy, mem_sortBy, List.mem_cons]

theorem pairwise_sortBy {A : Type} {le : A → A → Bool}
    (trans : ∀ a b c, le a b = true → le b c = true → le a c = true)
    (total : ∀ a b, (le a b || le b a) = true) :
    ∀ l : List A, (sortBy le l).Pairwise fun a b => le a b = true
  | [] => by simp [sortBy]
  | a :: l => by
    have key : ∀ m : List A, (m.Pairwise fun a b => le a b = true) →
        (insertBy le a m).Pairwise fun a b => le a b = true := by
      intro m
      induction m with
      | nil => simp [insertBy]
      | cons b m ih =>
        intro h
        rw [List.pairwise_cons] at h
        rw [insertBy]
        split
        · rename_i hab
          rw [List.pairwise_cons, List.pairwise_cons]
          refine ⟨?_, h⟩
          intro x hx
          rcases List.mem_cons.1 hx with rfl | hx
          · exact hab
          · exact trans _ _ _ hab (h.1 x hx)
        · rename_i hab
          rw [List.pairwise_cons]
          refine ⟨?_, ih h.2⟩
          intro x hx
          rcases mem_insertBy.1 hx with rfl | hx
          · have := total x b
            simp only [Bool.or_eq_true] at this
            exact this.resolve_left hab
          · exact h.1 x hx
    exact key _ (pairwise_sortBy trans total l)

/-! ## Sets as sorted lists -/

/-- Strictly increasing. -/
def Inc (l : List (Span T)) : Prop := l.Pairwise (· < ·)

theorem mem_insertSet {s x : Span T} : ∀ {l : List (Span T)}, x ∈ insertSet s l ↔ x = s ∨ x ∈ l
  | [] => by simp [insertSet]
  | a :: l => by
    rw [insertSet]
    split
    · simp
    · split
      · rename_i h; subst h; simp
      · simp only [List.mem_cons, mem_insertSet (l := l)]; tauto

theorem inc_insertSet {s : Span T} : ∀ {l : List (Span T)}, Inc l → Inc (insertSet s l)
  | [], _ => by simp [insertSet, Inc]
  | a :: l, h => by
    rw [Inc, List.pairwise_cons] at h
    rw [insertSet]
    split
    · rename_i hlt
      rw [Inc, List.pairwise_cons, List.pairwise_cons]
      refine ⟨?_, h⟩
      intro x hx
      rcases List.mem_cons.1 hx with rfl | hx
      · exact hlt
      · exact hlt.trans (h.1 x hx)
    · split
      · exact List.pairwise_cons.2 h
      · rename_i h1 h2
        rw [Inc, List.pairwise_cons]
        refine ⟨?_, inc_insertSet h.2⟩
        intro x hx
        rcases mem_insertSet.1 hx with rfl | hx
        · exact lt_of_le_of_ne (not_lt.1 h1) (Ne.symm h2)
        · exact h.1 x hx

theorem inc_nodup {l : List (Span T)} (h : Inc l) : l.Nodup :=
  List.Pairwise.imp (fun h => ne_of_lt h) h

theorem mem_erase_inc {s x : Span T} {l : List (Span T)} (h : Inc l) :
    x ∈ l.erase s ↔ x ≠ s ∧ x ∈ l := (inc_nodup h).mem_erase_iff

theorem inc_erase {s : Span T} {l : List (Span T)} (h : Inc l) : Inc (l.erase s) :=
  List.Pairwise.sublist List.erase_sublist h

theorem inc_head {l : List (Span T)} (h : Inc l) {r : Span T} :
    l.head? = some r ↔ r ∈ l ∧ ∀ x ∈ l, r ≤ x := by
  cases l with
  | nil => simp
  | cons a l =>
    rw [Inc, List.pairwise_cons] at h
    simp only [List.head?_cons, Option.some.injEq, List.mem_cons]
    constructor
    · rintro rfl
      refine ⟨.inl rfl, ?_⟩
      rintro x (rfl | hx)
      · exact le_refl _
      · exact le_of_lt (h.1 x hx)
    · rintro ⟨rfl | hr, hm⟩
      · rfl
      · exact absurd (hm a (.inl rfl)) (not_le.2 (h.1 r hr))

/-- Removing and inserting the spans of some events. -/
theorem removed : ∀ {now : List (Event T)} {a : List (Span T)}, Inc a →
    Inc (now.foldl (fun a x => if x.kind = .stop then a.erase x.span else a) a) ∧
    ∀ s, s ∈ now.foldl (fun a x => if x.kind = .stop then a.erase x.span else a) a ↔
      s ∈ a ∧ ∀ e ∈ now, e.kind = .stop → e.span ≠ s
  | [], a, h => by simp [h]
  | e :: now, a, h => by
    simp only [List.foldl_cons]
    split
    · rename_i hk
      have := removed (now := now) (inc_erase (s := e.span) h)
      refine ⟨this.1, fun s => ?_⟩
      rw [this.2, mem_erase_inc h]
      simp only [List.mem_cons, forall_eq_or_imp, hk, true_implies]
      constructor
      · rintro ⟨⟨h1, h2⟩, h3⟩; exact ⟨h2, Ne.symm h1, h3⟩
      · rintro ⟨h2, h1, h3⟩; exact ⟨⟨Ne.symm h1, h2⟩, h3⟩
    · rename_i hk
      have := removed (now := now) h
      refine ⟨this.1, fun s => ?_⟩
      rw [this.2]
      simp [hk]

theorem inserted : ∀ {now : List (Event T)} {a : List (Span T)}, Inc a →
    Inc (now.foldl (fun a x => if x.kind = .start then insertSet x.span a else a) a) ∧
    ∀ s, s ∈ now.foldl (fun a x => if x.kind = .start then insertSet x.span a else a) a ↔
      s ∈ a ∨ ∃ e ∈ now, e.kind = .start ∧ e.span = s
  | [], a, h => by simp [h]
  | e :: now, a, h => by
    simp only [List.foldl_cons]
    split
    · rename_i hk
      have := inserted (now := now) (inc_insertSet (s := e.span) h)
      refine ⟨this.1, fun s => ?_⟩
      rw [this.2, mem_insertSet]
      simp only [List.mem_cons, exists_eq_or_imp, hk, true_and]
      rw [eq_comm (a := s)]
      tauto
    · rename_i hk
      have := inserted (now := now) h
      refine ⟨this.1, fun s => ?_⟩
      rw [this.2]
      simp [hk]

/-! ## Events -/

theorem mem_events {e : Event T} : ∀ {ss : List (Span T)}, e ∈ events ss ↔
    e.span ∈ ss ∧ e.span.start < e.span.stop ∧
      e.pos = (if e.kind = .start then e.span.start else e.span.stop)
  | [] => by simp [events]
  | s :: ss => by
    rw [events]
    have ih := mem_events (e := e) (ss := ss)
    by_cases hs : s.isEmpty = true
    · rw [if_pos hs, ih]
      simp only [Span.isEmpty, decide_eq_true_eq] at hs
      simp only [List.mem_cons]
      constructor
      · rintro ⟨h1, h2⟩; exact ⟨.inr h1, h2⟩
      · rintro ⟨rfl | h1, h2⟩
        · omega
        · exact ⟨h1, h2⟩
    · rw [if_neg hs]
      simp only [List.mem_cons, ih]
      simp only [Span.isEmpty, decide_eq_true_eq, not_le] at hs
      obtain ⟨pos, kind, span⟩ := e
      simp only [Event.mk.injEq]
      constructor
      · rintro (⟨rfl, rfl, rfl⟩ | ⟨rfl, rfl, rfl⟩ | ⟨h1, h2⟩)
        · simp [hs]
        · simp [hs]
        · exact ⟨.inr h1, h2⟩
      · rintro ⟨rfl | h1, h2, h3⟩
        · cases kind
          · exact .inr (.inl ⟨by simpa using h3, rfl, rfl⟩)
          · exact .inl ⟨by simpa using h3, rfl, rfl⟩
        · exact .inr (.inr ⟨h1, h2, h3⟩)

theorem le_pos {a b : Event T} (h : Event.le a b = true) : a.pos ≤ b.pos := by
  unfold Event.le at h
  split at h
  · exact le_of_lt (by simpa using h)
  · rename_i h'; simp at h'; omega

theorem event_total (a b : Event T) : (Event.le a b || Event.le b a) = true := by
  rcases a with ⟨p, k, s⟩
  rcases b with ⟨q, l, t⟩
  simp only [Event.le]
  rcases Nat.lt_trichotomy p q with h | rfl | h
  · simp [Nat.ne_of_lt h, h]
  · cases k <;> cases l <;> simp [EventKind.rank, le_total]
  · simp [Nat.ne_of_gt h, Nat.ne_of_lt h, h]

theorem event_trans (a b c : Event T) (h1 : Event.le a b = true) (h2 : Event.le b c = true) :
    Event.le a c = true := by
  rcases a with ⟨p, k, s⟩
  rcases b with ⟨q, l, t⟩
  rcases c with ⟨r, m, u⟩
  simp only [Event.le] at h1 h2 ⊢
  by_cases hpq : p = q
  · subst hpq
    by_cases hpr : p = r
    · subst hpr
      cases k <;> cases l <;> cases m <;> simp [EventKind.rank] at h1 h2 ⊢
      · exact h1.trans h2
      · exact h1.trans h2
    · simpa [hpr] using h2
  · simp [hpq] at h1
    by_cases hqr : q = r
    · subst hqr
      simp [hpq, h1]
    · simp [hqr] at h2
      have : p < r := h1.trans h2
      simp [Nat.ne_of_lt this, this]

theorem sorted_takeWhile {l : List (Event T)} {p : Nat} (h : l.Pairwise fun a b => a.pos ≤ b.pos)
    (hp : ∀ e ∈ l, p ≤ e.pos) {e : Event T} :
    (e ∈ l.takeWhile fun x => x.pos = p) ↔ e ∈ l ∧ e.pos = p := by
  induction l with
  | nil => simp
  | cons a l ih =>
    rw [List.pairwise_cons] at h
    rw [List.takeWhile_cons]
    by_cases ha : a.pos = p
    · simp only [ha, decide_true, if_true, List.mem_cons,
        ih h.2 (fun e he => hp e (List.mem_cons_of_mem _ he))]
      constructor
      · rintro (rfl | h)
        · exact ⟨.inl rfl, ha⟩
        · exact ⟨.inr h.1, h.2⟩
      · rintro ⟨rfl | h, h'⟩
        · exact .inl rfl
        · exact .inr ⟨h, h'⟩
    · simp only [ha, decide_false, Bool.false_eq_true, if_false, List.not_mem_nil, false_iff]
      rintro ⟨he, hpos⟩
      rcases List.mem_cons.1 he with rfl | he
      · exact ha hpos
      · have := h.1 e he
        have := hp a (by simp)
        omega

theorem sorted_dropWhile {l : List (Event T)} {p : Nat} (h : l.Pairwise fun a b => a.pos ≤ b.pos)
    (hp : ∀ e ∈ l, p ≤ e.pos) {e : Event T} :
    (e ∈ l.dropWhile fun x => x.pos = p) ↔ e ∈ l ∧ p < e.pos := by
  induction l with
  | nil => simp
  | cons a l ih =>
    rw [List.pairwise_cons] at h
    rw [List.dropWhile_cons]
    by_cases ha : a.pos = p
    · simp only [ha, decide_true, if_true, List.mem_cons,
        ih h.2 (fun e he => hp e (List.mem_cons_of_mem _ he))]
      constructor
      · rintro h
        exact ⟨.inr h.1, h.2⟩
      · rintro ⟨rfl | h, h'⟩
        · omega
        · exact ⟨h, h'⟩
    · simp only [ha, decide_false, Bool.false_eq_true, if_false, List.mem_cons]
      constructor
      · intro he
        refine ⟨he, ?_⟩
        have := hp a (by simp)
        rcases he with rfl | he
        · omega
        · have := h.1 e he
          omega
      · exact fun h => h.1

/-! ## The sweep -/

/-- The least span among those that are not empty and contain the offset. -/
def Best (ss : List (Span T)) (o : Nat) (r : Span T) : Prop :=
  r ∈ ss ∧ r.start ≤ o ∧ o < r.stop ∧ ∀ s ∈ ss, s.start ≤ o → o < s.stop → r ≤ s

/-- Segments, from the last to the first, that tell the best span up to `p`. -/
structure Upto (ss : List (Span T)) (p : Nat) (segs : List (Segment T)) : Prop where
  order : segs.Pairwise fun a b => b.stop ≤ a.start
  last : ∀ g ∈ segs, g.stop ≤ p
  right : ∀ g ∈ segs, g.start < g.stop ∧ ∀ o, g.start ≤ o → o < g.stop → Best ss o g.best
  all : ∀ o r, o < p → Best ss o r → ∃ g ∈ segs, g.start ≤ o ∧ o < g.stop

theorem best_unique {ss : List (Span T)} {o : Nat} {r r' : Span T} (h : Best ss o r)
    (h' : Best ss o r') : r = r' :=
  le_antisymm (h.2.2.2 r' h'.1 h'.2.1 h'.2.2.1) (h'.2.2.2 r h.1 h.2.1 h.2.2.1)

theorem upto_push {ss : List (Span T)} {p q : Nat} {segs : List (Segment T)} {b : Span T}
    (h : Upto ss p segs) (hpq : p < q) (hb : ∀ o, p ≤ o → o < q → Best ss o b) :
    Upto ss q (pushSegment segs p q b) := by
  unfold pushSegment
  split
  · rename_i prev rest
    have hord := h.order
    rw [List.pairwise_cons] at hord
    split
    · rename_i e
      obtain ⟨rfl, e⟩ := e
      have hr := h.right prev (by simp)
      refine ⟨?_, ?_, ?_, ?_⟩
      · rw [List.pairwise_cons]
        exact hord
      · intro g hg
        rcases List.mem_cons.1 hg with rfl | hg
        · exact le_refl _
        · exact (h.last g (List.mem_cons_of_mem _ hg)).trans hpq.le
      · intro g hg
        rcases List.mem_cons.1 hg with rfl | hg
        · refine ⟨by simp only; omega, fun o h1 h2 => ?_⟩
          by_cases ho : o < p
          · exact hr.2 o h1 (by omega)
          · exact hb o (by omega) h2
        · exact h.right g (List.mem_cons_of_mem _ hg)
      · intro o r ho hbest
        by_cases ho' : o < p
        · obtain ⟨g, hg, h1, h2⟩ := h.all o r ho' hbest
          rcases List.mem_cons.1 hg with rfl | hg
          · exact ⟨_, List.mem_cons_self, h1, ho⟩
          · exact ⟨g, List.mem_cons_of_mem _ hg, h1, h2⟩
        · exact ⟨_, List.mem_cons_self, by simp only; omega, ho⟩
    · refine ⟨?_, ?_, ?_, ?_⟩
      · rw [List.pairwise_cons]
        exact ⟨fun g hg => h.last g hg, h.order⟩
      · intro g hg
        rcases List.mem_cons.1 hg with rfl | hg
        · exact le_refl _
        · exact (h.last g hg).trans hpq.le
      · intro g hg
        rcases List.mem_cons.1 hg with rfl | hg
        · exact ⟨hpq, hb⟩
        · exact h.right g hg
      · intro o r ho hbest
        by_cases ho' : o < p
        · obtain ⟨g, hg, h1⟩ := h.all o r ho' hbest
          exact ⟨g, List.mem_cons_of_mem _ hg, h1⟩
        · exact ⟨_, List.mem_cons_self, by simp only; omega, ho⟩
  · refine ⟨by simp, by simp, ?_, ?_⟩
    · simpa using ⟨hpq, hb⟩
    · intro o r ho hbest
      by_cases ho' : o < p
      · obtain ⟨g, hg, _⟩ := h.all o r ho' hbest
        simp at hg
      · exact ⟨_, List.mem_cons_self, by simp only; omega, ho⟩

theorem upto_skip {ss : List (Span T)} {p q : Nat} {segs : List (Segment T)} (h : Upto ss p segs)
    (hpq : p ≤ q) (hb : ∀ o r, p ≤ o → o < q → ¬ Best ss o r) : Upto ss q segs :=
  ⟨h.order, fun g hg => (h.last g hg).trans hpq, h.right, fun o r ho hbest => by
    by_cases ho' : o < p
    · exact h.all o r ho' hbest
    · exact absurd hbest (hb o r (by omega) ho)⟩

/-- The loop, between two rounds: the events beyond `p` are left, the spans around `p` are active. -/
theorem sweep_right {ss : List (Span T)} : ∀ (n : Nat) (es : List (Event T)) (active : List (Span T))
    (segs : List (Segment T)) (p : Nat), es.length ≤ n →
    es.Pairwise (fun a b => a.pos ≤ b.pos) →
    (∀ e, e ∈ es ↔ e ∈ events ss ∧ p < e.pos) →
    Inc active →
    (∀ s, s ∈ active ↔ s ∈ ss ∧ s.start ≤ p ∧ p < s.stop) →
    Upto ss p segs →
    ∃ q, (∀ s ∈ ss, s.start < s.stop → s.stop ≤ q) ∧
      Upto ss q (sweep n es active segs (some p) active.head?)
  | n, [], active, segs, p, _, _, hes, _, _, hu => by
    have : sweep n [] active segs (some p) active.head? = segs := by cases n <;> simp [sweep]
    rw [this]
    refine ⟨p, fun s hs hlt => ?_, hu⟩
    by_contra hc
    have : (⟨s.stop, .stop, s⟩ : Event T) ∈ ([] : List (Event T)) :=
      (hes _).2 ⟨mem_events.2 ⟨hs, hlt, by simp⟩, by simp only; omega⟩
    simp at this
  | 0, _ :: _, _, _, _, hn, _, _, _, _, _ => by simp at hn
  | n + 1, e :: es, active, segs, p, hn, hsort, hes, hinc, hact, hu => by
    have hp : p < e.pos := ((hes e).1 (by simp)).2
    have hmin : ∀ x ∈ e :: es, e.pos ≤ x.pos := by
      rw [List.pairwise_cons] at hsort
      intro x hx
      rcases List.mem_cons.1 hx with rfl | hx
      · exact le_refl _
      · exact hsort.1 x hx
    -- nothing happens between
    have hstart : ∀ s ∈ ss, s.start < s.stop → p < s.start → e.pos ≤ s.start := by
      intro s hs hlt hps
      exact hmin ⟨s.start, .start, s⟩ ((hes _).2 ⟨mem_events.2 ⟨hs, hlt, by simp⟩, hps⟩)
    have hstop : ∀ s ∈ ss, s.start < s.stop → p < s.stop → e.pos ≤ s.stop := by
      intro s hs hlt hps
      exact hmin ⟨s.stop, .stop, s⟩ ((hes _).2 ⟨mem_events.2 ⟨hs, hlt, by simp⟩, hps⟩)
    have hbetween : ∀ o, p ≤ o → o < e.pos → ∀ s ∈ ss, (s.start ≤ o ∧ o < s.stop ↔ s ∈ active) := by
      intro o h1 h2 s hs
      rw [hact]
      constructor
      · rintro ⟨h3, h4⟩
        refine ⟨hs, ?_, by omega⟩
        by_contra hc
        have := hstart s hs (by omega) (by omega)
        omega
      · rintro ⟨_, h3, h4⟩
        refine ⟨by omega, ?_⟩
        have := hstop s hs (by omega) h4
        omega
    unfold sweep
    have hupto : Upto ss e.pos (match some p, active.head? with
        | some p, some b => if p < e.pos then pushSegment segs p e.pos b else segs
        | _, _ => segs) := by
      cases hh : active.head? with
      | none =>
        simp only
        refine upto_skip hu hp.le fun o r h1 h2 hb => ?_
        have : r ∈ active := (hbetween o h1 h2 r hb.1).1 ⟨hb.2.1, hb.2.2.1⟩
        rw [List.head?_eq_none_iff] at hh
        simp [hh] at this
      | some b =>
        simp only [hp, if_true]
        refine upto_push hu hp fun o h1 h2 => ?_
        obtain ⟨hb, hm⟩ := (inc_head hinc).1 hh
        have hbs := ((hact b).1 hb).1
        have hcov := (hbetween o h1 h2 b hbs).2 hb
        exact ⟨hbs, hcov.1, hcov.2, fun s hs h3 h4 => hm s ((hbetween o h1 h2 s hs).1 ⟨h3, h4⟩)⟩
    have hrem := removed (now := (e :: es).takeWhile fun x => x.pos = e.pos) hinc
    have hins := inserted (now := (e :: es).takeWhile fun x => x.pos = e.pos) hrem.1
    refine sweep_right n _ _ _ e.pos ?_ ?_ ?_ hins.1 ?_ hupto
    · rw [List.dropWhile_cons]
      simp only [decide_true, if_true]
      have := (List.dropWhile_sublist (l := es) fun x => decide (x.pos = e.pos)).length_le
      simp only [List.length_cons] at hn
      omega
    · exact List.Pairwise.sublist (List.dropWhile_sublist _) hsort
    · intro x
      rw [sorted_dropWhile hsort hmin, hes]
      constructor
      · rintro ⟨⟨h1, _⟩, h2⟩; exact ⟨h1, h2⟩
      · rintro ⟨h1, h2⟩; exact ⟨⟨h1, by omega⟩, h2⟩
    · intro s
      rw [hins.2, hrem.2, hact]
      simp only [sorted_takeWhile hsort hmin, hes]
      constructor
      · rintro (⟨⟨hs, h1, h2⟩, h3⟩ | ⟨x, ⟨⟨hx, _⟩, hpos⟩, hk, rfl⟩)
        · refine ⟨hs, by omega, ?_⟩
          have := hstop s hs (by omega) h2
          refine lt_of_le_of_ne this fun he => ?_
          exact h3 ⟨s.stop, .stop, s⟩
            ⟨⟨mem_events.2 ⟨hs, by simp only; omega, by simp⟩, by simp only; omega⟩, he.symm⟩ rfl rfl
        · obtain ⟨h1, h2, h3⟩ := mem_events.1 hx
          simp only [hk, if_true] at h3
          exact ⟨h1, by omega, by omega⟩
      · rintro ⟨hs, h1, h2⟩
        by_cases h : s.start ≤ p
        · refine .inl ⟨⟨hs, h, by omega⟩, ?_⟩
          rintro x ⟨⟨hx, _⟩, hpos⟩ hk rfl
          obtain ⟨_, _, h3⟩ := mem_events.1 hx
          rw [hk] at h3
          simp at h3
          omega
        · have := hstart s hs (by omega) (by omega)
          exact .inr ⟨⟨s.start, .start, s⟩,
            ⟨⟨mem_events.2 ⟨hs, by simp only; omega, by simp⟩, by simp only; omega⟩, by simp only; omega⟩,
            rfl, rfl⟩

/-- The segments tell the best span. -/
theorem buildSegments_right (ss : List (Span T)) :
    ∃ q, (∀ s ∈ ss, s.start < s.stop → s.stop ≤ q) ∧ Upto ss q (buildSegments ss).reverse := by
  rw [buildSegments]
  simp only [List.reverse_reverse]
  have hperm : ∀ e, e ∈ sortBy Event.le (events ss) ↔ e ∈ events ss := fun e => mem_sortBy
  have hsort : (sortBy Event.le (events ss)).Pairwise (fun a b => a.pos ≤ b.pos) :=
    List.Pairwise.imp le_pos (pairwise_sortBy event_trans event_total _)
  generalize sortBy Event.le (events ss) = es at hperm hsort
  cases es with
  | nil =>
    refine ⟨0, fun s hs hlt => ?_, ?_⟩
    · have : (⟨s.stop, .stop, s⟩ : Event T) ∈ ([] : List (Event T)) :=
        (hperm _).2 (mem_events.2 ⟨hs, hlt, by simp⟩)
      simp at this
    · simp only [List.length_nil, sweep]
      exact ⟨by simp, by simp, by simp, fun o r ho => by omega⟩
  | cons e es =>
    have hmin : ∀ x ∈ e :: es, e.pos ≤ x.pos := by
      rw [List.pairwise_cons] at hsort
      intro x hx
      rcases List.mem_cons.1 hx with rfl | hx
      · exact le_refl _
      · exact hsort.1 x hx
    rw [List.length_cons]
    unfold sweep
    have hrem := removed (now := (e :: es).takeWhile fun x => x.pos = e.pos)
      (a := ([] : List (Span T))) (by simp [Inc])
    have hins := inserted (now := (e :: es).takeWhile fun x => x.pos = e.pos) hrem.1
    have hstart : ∀ s ∈ ss, s.start < s.stop → e.pos ≤ s.start := by
      intro s hs hlt
      exact hmin ⟨s.start, .start, s⟩ ((hperm _).2 (mem_events.2 ⟨hs, hlt, by simp⟩))
    refine sweep_right es.length _ _ _ e.pos ?_ ?_ ?_ hins.1 ?_ ?_
    · rw [List.dropWhile_cons]
      simp only [decide_true, if_true]
      exact (List.dropWhile_sublist _).length_le
    · exact List.Pairwise.sublist (List.dropWhile_sublist _) hsort
    · intro x
      rw [sorted_dropWhile hsort hmin, hperm]
    · intro s
      rw [hins.2, hrem.2]
      simp only [sorted_takeWhile hsort hmin, hperm]
      constructor
      · rintro (⟨h, _⟩ | ⟨x, ⟨hx, hpos⟩, hk, rfl⟩)
        · simp at h
        · obtain ⟨h1, h2, h3⟩ := mem_events.1 hx
          simp only [hk, if_true] at h3
          exact ⟨h1, by omega, by omega⟩
      · rintro ⟨hs, h1, h2⟩
        have := hstart s hs (by omega)
        exact .inr ⟨⟨s.start, .start, s⟩,
          ⟨mem_events.2 ⟨hs, by simp only; omega, by simp⟩, by simp only; omega⟩, rfl, rfl⟩
    · refine ⟨by simp, by simp, by simp, ?_⟩
      intro o r ho hb
      have := hstart r hb.1 (by have := hb.2.1; have := hb.2.2.1; omega)
      have := hb.2.1
      omega

/-- Looking up an offset in segments. -/
theorem lookup_right {ss : List (Span T)} (o : Nat) (r : Span T) :
    lookup (buildSegments ss) o = some r ↔ Best ss o r := by
  unfold lookup
  obtain ⟨q, hq, hu⟩ := buildSegments_right ss
  have hord : (buildSegments ss).Pairwise fun a b => a.stop ≤ b.start := by
    have := hu.order
    rwa [List.pairwise_reverse] at this
  have hall : ∀ r, Best ss o r → ∃ g ∈ buildSegments ss, g.start ≤ o ∧ o < g.stop := by
    intro r hr
    have := hq r hr.1 (by have := hr.2.1; have := hr.2.2.1; omega)
    obtain ⟨g, hg, h⟩ := hu.all o r (by have := hr.2.2.1; omega) hr
    exact ⟨g, List.mem_reverse.1 hg, h⟩
  have hright : ∀ g ∈ buildSegments ss, g.start ≤ o → o < g.stop → Best ss o g.best :=
    fun g hg => (hu.right g (List.mem_reverse.2 hg)).2 o
  have hlt : ∀ g ∈ buildSegments ss, g.start < g.stop :=
    fun g hg => (hu.right g (List.mem_reverse.2 hg)).1
  revert hord hall hright hlt
  generalize buildSegments ss = l
  intro hord hall hright hlt
  induction l with
  | nil =>
    simp only [List.dropWhile_nil]
    constructor
    · intro h; cases h
    · intro h
      obtain ⟨g, hg, _⟩ := hall r h
      simp at hg
  | cons a l ih =>
    rw [List.pairwise_cons] at hord
    rw [List.dropWhile_cons]
    by_cases ha : a.stop ≤ o
    · simp only [ha, decide_true, if_true]
      refine ih hord.2 ?_ (fun g hg => hright g (List.mem_cons_of_mem _ hg))
        (fun g hg => hlt g (List.mem_cons_of_mem _ hg))
      intro r hr
      obtain ⟨g, hg, h1, h2⟩ := hall r hr
      rcases List.mem_cons.1 hg with rfl | hg
      · omega
      · exact ⟨g, hg, h1, h2⟩
    · simp only [ha, decide_false, Bool.false_eq_true, if_false]
      by_cases hs : a.start ≤ o
      · have hb := hright a (by simp) hs (by omega)
        simp only [hs, if_true, Option.some.injEq]
        constructor
        · rintro rfl; exact hb
        · intro h; exact best_unique hb h
      · simp only [hs, if_false]
        constructor
        · intro h; cases h
        · intro h
          obtain ⟨g, hg, h1, h2⟩ := hall r h
          rcases List.mem_cons.1 hg with rfl | hg
          · omega
          · have := hord.1 g hg
            have := hlt a (by simp)
            omega

/-! ## Empty spans -/

theorem foldl_least {l : List (Span T)} : ∀ {b : Option (Span T)} {r : Span T},
    l.foldl (fun best s =>
      match best with
      | some b => if s < b then some s else some b
      | none => some s) b = some r ↔
    (b = some r ∨ r ∈ l) ∧ (∀ x, b = some x → r ≤ x) ∧ ∀ x ∈ l, r ≤ x := by
  induction l with
  | nil =>
    intro b r
    simp only [List.foldl_nil, List.not_mem_nil, or_false]
    constructor
    · intro h; subst h; simp
    · exact fun h => h.1
  | cons a l ih =>
    intro b r
    rw [List.foldl_cons, ih]
    cases b with
    | none =>
      simp only [Option.some.injEq, reduceCtorEq, false_or, List.mem_cons, forall_eq_or_imp,
        forall_eq', false_implies, implies_true, true_and]
      rw [eq_comm (a := a)]
    | some b =>
      simp only
      split
      · rename_i hlt
        simp only [Option.some.injEq, forall_eq', List.mem_cons, forall_eq_or_imp]
        constructor
        · rintro ⟨h1, h2, h3⟩
          refine ⟨?_, h2.trans hlt.le, h2, h3⟩
          rcases h1 with rfl | h1
          · exact .inr (.inl rfl)
          · exact .inr (.inr h1)
        · rintro ⟨h1, h2, h3, h4⟩
          refine ⟨?_, h3, h4⟩
          rcases h1 with rfl | rfl | h1
          · exact absurd h3 (not_le.2 hlt)
          · exact .inl rfl
          · exact .inr h1
      · rename_i hlt
        rw [not_lt] at hlt
        simp only [Option.some.injEq, forall_eq', List.mem_cons, forall_eq_or_imp]
        constructor
        · rintro ⟨h1, h2, h3⟩
          refine ⟨?_, h2, h2.trans hlt, h3⟩
          rcases h1 with rfl | h1
          · exact .inl rfl
          · exact .inr (.inr h1)
        · rintro ⟨h1, h2, h3, h4⟩
          refine ⟨?_, h2, h4⟩
          rcases h1 with rfl | rfl | h1
          · exact .inl rfl
          · exact .inl (le_antisymm hlt h2)
          · exact .inr h1

theorem sorted_at {l : List (Span T)} {o : Nat} (h : l.Pairwise fun a b => a.start ≤ b.start)
    {s : Span T} :
    (s ∈ (l.dropWhile fun s => s.start < o).takeWhile fun s => s.start = o) ↔ s ∈ l ∧ s.start = o := by
  induction l with
  | nil => simp
  | cons a l ih =>
    rw [List.pairwise_cons] at h
    rw [List.dropWhile_cons]
    by_cases ha : a.start < o
    · simp only [ha, decide_true, if_true, ih h.2, List.mem_cons]
      constructor
      · exact fun h => ⟨.inr h.1, h.2⟩
      · rintro ⟨rfl | hs, he⟩
        · omega
        · exact ⟨hs, he⟩
    · simp only [ha, decide_false, Bool.false_eq_true, if_false]
      have hge : ∀ x ∈ a :: l, o ≤ x.start := by
        intro x hx
        rcases List.mem_cons.1 hx with rfl | hx
        · omega
        · have := h.1 x hx
          omega
      have hpair : (a :: l).Pairwise fun a b => a.start ≤ b.start := List.pairwise_cons.2 h
      clear ih h ha
      generalize a :: l = m at hge hpair
      induction m with
      | nil => simp
      | cons b m ih =>
        rw [List.pairwise_cons] at hpair
        rw [List.takeWhile_cons]
        by_cases hb : b.start = o
        · simp only [hb, decide_true, if_true, List.mem_cons,
            ih (fun x hx => hge x (List.mem_cons_of_mem _ hx)) hpair.2]
          constructor
          · rintro (rfl | h)
            · exact ⟨.inl rfl, hb⟩
            · exact ⟨.inr h.1, h.2⟩
          · rintro ⟨rfl | h, he⟩
            · exact .inl rfl
            · exact .inr ⟨h, he⟩
        · simp only [hb, decide_false, Bool.false_eq_true, if_false, List.not_mem_nil, false_iff]
          rintro ⟨hs, he⟩
          rcases List.mem_cons.1 hs with rfl | hs
          · exact hb he
          · have := hpair.1 s hs
            have := hge b (by simp)
            omega

theorem start_le {a b : Span T} (ha : a.stop ≤ a.start) (hb : b.stop ≤ b.start) (h : a ≤ b) :
    a.start ≤ b.start := by
  rw [← not_lt, ← better_iff] at h
  by_contra hc
  refine h (.inr ⟨by omega, .inl (by omega)⟩)

theorem bestEmpty_right {es : List (Span T)} (hes : ∀ s ∈ es, s.stop ≤ s.start) (o : Nat) (r : Span T) :
    bestEmpty (sortBy (fun a b => a ≤ b) es) o = some r ↔
      r ∈ es ∧ r.start = o ∧ ∀ s ∈ es, s.start = o → r ≤ s := by
  have hsort : (sortBy (fun a b => decide (a ≤ b)) es).Pairwise fun a b => a.start ≤ b.start := by
    have h1 : (sortBy (fun a b => decide (a ≤ b)) es).Pairwise fun a b => decide (a ≤ b) = true :=
      pairwise_sortBy (fun a b c h1 h2 => by simp at h1 h2 ⊢; exact h1.trans h2)
        (fun a b => by simp [le_total]) _
    refine List.Pairwise.imp_of_mem (fun {a b} ha hb h => ?_) h1
    exact start_le (hes a (mem_sortBy.1 ha)) (hes b (mem_sortBy.1 hb)) (by simpa using h)
  refine Iff.trans foldl_least ?_
  simp only [sorted_at hsort, mem_sortBy, reduceCtorEq, false_or, false_implies, implies_true,
    true_and]
  constructor
  · rintro ⟨⟨h1, h2⟩, h3⟩; exact ⟨h1, h2, fun s hs he => h3 s ⟨hs, he⟩⟩
  · rintro ⟨h1, h2, h3⟩; exact ⟨⟨h1, h2⟩, fun s hs => h3 s hs.1 hs.2⟩

/-! ## Histories -/

/-- An index holds the spans that were added. -/
structure Holds (x : Index T) (ss : List (Span T)) : Prop where
  spans : ∀ s, s ∈ x.spans ↔ s ∈ ss ∧ s.start < s.stop
  empties : ∀ s, s ∈ x.empties ↔ s ∈ ss ∧ s.stop ≤ s.start
  byId : ∀ i r, x.byId i = some r ↔ r ∈ ss ∧ r.id = i ∧ ∀ s ∈ ss, s.id = i → r ≤ s

theorem holds_add {x : Index T} {ss : List (Span T)} (h : Holds x ss) (s : Span T) :
    Holds (x.add s) (ss ++ [s]) := by
  have hbyId : ∀ i r, record x.byId s i = some r ↔
      r ∈ ss ++ [s] ∧ r.id = i ∧ ∀ t ∈ ss ++ [s], t.id = i → r ≤ t := by
    intro i r
    have hb := h.byId i
    simp only [List.mem_append, List.mem_singleton]
    rw [record]
    by_cases hi : i = s.id
    · subst hi
      rw [if_pos rfl]
      cases hm : x.byId s.id with
      | none =>
        have hno : ∀ t ∈ ss, t.id ≠ s.id := by
          intro t ht e
          -- the least of the spans with this id
          have : ∃ r ∈ ss.filter (fun t => t.id = s.id), ∀ t ∈ ss.filter (fun t => t.id = s.id), r ≤ t := by
            have hne : ss.filter (fun t => t.id = s.id) ≠ [] :=
              List.ne_nil_of_mem (List.mem_filter.2 ⟨ht, by simpa using e⟩)
            revert hne
            generalize ss.filter (fun t => t.id = s.id) = l
            intro hne
            clear hb hm h ht e
            induction l with
            | nil => exact absurd rfl hne
            | cons a l ih =>
              by_cases hl : l = []
              · subst hl; exact ⟨a, by simp, by simp⟩
              · obtain ⟨r, hr, hm⟩ := ih hl
                rcases le_total a r with h | h
                · refine ⟨a, by simp, ?_⟩
                  intro t ht
                  rcases List.mem_cons.1 ht with rfl | ht
                  · exact le_refl _
                  · exact h.trans (hm t ht)
                · refine ⟨r, List.mem_cons_of_mem _ hr, ?_⟩
                  intro t ht
                  rcases List.mem_cons.1 ht with rfl | ht
                  · exact h
                  · exact hm t ht
          obtain ⟨r, hr, hmin⟩ := this
          rw [List.mem_filter] at hr
          have := (hb r).2 ⟨hr.1, by simpa using hr.2,
            fun t ht he => hmin t (List.mem_filter.2 ⟨ht, by simpa using he⟩)⟩
          rw [hm] at this
          cases this
        simp only [Option.some.injEq]
        constructor
        · rintro rfl
          refine ⟨.inr rfl, rfl, ?_⟩
          rintro t (ht | rfl) he
          · exact absurd he (hno t ht)
          · exact le_refl _
        · rintro ⟨h1 | h1, h2, _⟩
          · exact absurd h2 (hno r h1)
          · exact h1.symm
      | some b =>
        obtain ⟨hb1, hb2, hb3⟩ := (hb b).1 hm
        simp only
        split
        · rename_i hlt
          simp only [Option.some.injEq]
          constructor
          · rintro rfl
            refine ⟨.inr rfl, rfl, ?_⟩
            rintro t (ht | rfl) he
            · exact hlt.le.trans (hb3 t ht he)
            · exact le_refl _
          · rintro ⟨h1 | h1, h2, h3⟩
            · exact absurd (h3 s (.inr rfl) rfl) (not_le.2 (lt_of_lt_of_le hlt (hb3 r h1 h2)))
            · exact h1.symm
        · rename_i hlt
          rw [not_lt] at hlt
          simp only [Option.some.injEq]
          constructor
          · rintro rfl
            refine ⟨.inl hb1, hb2, ?_⟩
            rintro t (ht | rfl) he
            · exact hb3 t ht he
            · exact hlt
          · rintro ⟨h1 | h1, h2, h3⟩
            · exact le_antisymm (hb3 r h1 h2) (h3 b (.inl hb1) hb2)
            · subst h1
              exact le_antisymm hlt (h3 b (.inl hb1) hb2)
    · rw [if_neg hi, hb]
      constructor
      · rintro ⟨h1, h2, h3⟩
        refine ⟨.inl h1, h2, ?_⟩
        rintro t (ht | rfl) he
        · exact h3 t ht he
        · exact absurd he.symm hi
      · rintro ⟨h1 | rfl, h2, h3⟩
        · exact ⟨h1, h2, fun t ht => h3 t (.inl ht)⟩
        · exact absurd h2.symm hi
  unfold Index.add
  simp only
  split
  · rename_i he
    simp only [Span.isEmpty, decide_eq_true_eq] at he
    refine ⟨?_, ?_, hbyId⟩
    · intro t
      simp only [h.spans, List.mem_append, List.mem_singleton]
      constructor
      · rintro ⟨h1, h2⟩; exact ⟨.inl h1, h2⟩
      · rintro ⟨h1 | rfl, h2⟩
        · exact ⟨h1, h2⟩
        · omega
    · intro t
      simp only [h.empties, List.mem_append, List.mem_singleton]
      constructor
      · rintro (⟨h1, h2⟩ | rfl)
        · exact ⟨.inl h1, h2⟩
        · exact ⟨.inr rfl, he⟩
      · rintro ⟨h1 | rfl, h2⟩
        · exact .inl ⟨h1, h2⟩
        · exact .inr rfl
  · rename_i he
    simp only [Span.isEmpty, decide_eq_true_eq, not_le] at he
    refine ⟨?_, ?_, hbyId⟩
    · intro t
      simp only [h.spans, List.mem_append, List.mem_singleton]
      constructor
      · rintro (⟨h1, h2⟩ | rfl)
        · exact ⟨.inl h1, h2⟩
        · exact ⟨.inr rfl, he⟩
      · rintro ⟨h1 | rfl, h2⟩
        · exact .inl ⟨h1, h2⟩
        · exact .inr rfl
    · intro t
      simp only [h.empties, List.mem_append, List.mem_singleton]
      constructor
      · rintro ⟨h1, h2⟩; exact ⟨.inl h1, h2⟩
      · rintro ⟨h1 | rfl, h2⟩
        · exact ⟨h1, h2⟩
        · omega

theorem holds_finalize {x : Index T} {ss : List (Span T)} (h : Holds x ss) : Holds x.finalize ss :=
  ⟨fun s => by simp only [Index.finalize, mem_sortBy, h.spans],
   fun s => by simp only [Index.finalize, mem_sortBy, h.empties],
   h.byId⟩

theorem holds_run (ops : List (Op T)) : Holds (run ops) (added ops) := by
  have : ∀ (ops : List (Op T)) (x : Index T) (ss : List (Span T)), Holds x ss →
      Holds (ops.foldl step x) (ss ++ added ops) := by
    intro ops
    induction ops with
    | nil => intro x ss h; simpa [added] using h
    | cons op ops ih =>
      intro x ss h
      rw [List.foldl_cons]
      cases op with
      | add s =>
        have := ih _ _ (holds_add h s)
        simpa [added, step] using this
      | finalize =>
        have := ih _ _ (holds_finalize h)
        simpa [added, step] using this
  have h := this ops {} [] ⟨by simp, by simp, by simp⟩
  rw [List.nil_append] at h
  exact h

theorem exists_least {ss : List (Span T)} (P : Span T → Prop) (hex : ∃ s ∈ ss, P s) :
    ∃ r ∈ ss, P r ∧ ∀ s ∈ ss, P s → r ≤ s := by
  classical
  induction ss with
  | nil => obtain ⟨s, hs, _⟩ := hex; simp at hs
  | cons a l ih =>
    by_cases hl : ∃ s ∈ l, P s
    · obtain ⟨r, hr, hp, hm⟩ := ih hl
      by_cases ha : P a ∧ a ≤ r
      · refine ⟨a, by simp, ha.1, ?_⟩
        intro t ht hpt
        rcases List.mem_cons.1 ht with rfl | ht
        · exact le_refl _
        · exact ha.2.trans (hm t ht hpt)
      · refine ⟨r, List.mem_cons_of_mem _ hr, hp, ?_⟩
        intro t ht hpt
        rcases List.mem_cons.1 ht with rfl | ht
        · exact (le_total r t).resolve_right fun h => ha ⟨hpt, h⟩
        · exact hm t ht hpt
    · obtain ⟨s, hs, hp⟩ := hex
      rcases List.mem_cons.1 hs with rfl | hs
      · refine ⟨s, by simp, hp, ?_⟩
        intro t ht hpt
        rcases List.mem_cons.1 ht with rfl | ht
        · exact le_refl _
        · exact absurd ⟨t, ht, hpt⟩ hl
      · exact absurd ⟨s, hs, hp⟩ hl

theorem query_right {x : Index T} {ss : List (Span T)} (h : Holds x ss) (o : Nat) (r : Span T) :
    x.finalize.query o = some r ↔ Innermost ss o r := by
  have hfull := fun r => lookup_right (ss := sortBy entryLe x.spans) o r
  have hempty := fun r => bestEmpty_right (es := x.empties) (fun s hs => ((h.empties s).1 hs).2) o r
  simp only [Index.query, Index.finalize]
  revert hfull hempty
  generalize lookup (buildSegments (sortBy entryLe x.spans)) o = full
  generalize bestEmpty (sortBy (fun a b => a ≤ b) x.empties) o = empty
  intro hfull hempty
  have hfull' : ∀ r, full = some r ↔ r ∈ ss ∧ r.start ≤ o ∧ o < r.stop ∧
      ∀ s ∈ ss, s.start ≤ o → o < s.stop → r ≤ s := by
    intro r
    rw [hfull, Best]
    simp only [mem_sortBy, h.spans]
    constructor
    · rintro ⟨⟨h1, _⟩, h2, h3, h4⟩
      exact ⟨h1, h2, h3, fun s hs h5 h6 => h4 s ⟨hs, by omega⟩ h5 h6⟩
    · rintro ⟨h1, h2, h3, h4⟩
      exact ⟨⟨h1, by omega⟩, h2, h3, fun s hs => h4 s hs.1⟩
  have hempty' : ∀ r, empty = some r ↔ r ∈ ss ∧ r.stop ≤ r.start ∧ r.start = o ∧
      ∀ s ∈ ss, s.stop ≤ s.start → s.start = o → r ≤ s := by
    intro r
    rw [hempty]
    simp only [h.empties]
    constructor
    · rintro ⟨⟨h1, h2⟩, h3, h4⟩
      exact ⟨h1, h2, h3, fun s hs h5 => h4 s ⟨hs, h5⟩⟩
    · rintro ⟨h1, h2, h3, h4⟩
      exact ⟨⟨h1, h2⟩, h3, fun s hs => h4 s hs.1 hs.2⟩
  have least := exists_least (ss := ss)
  have hfn : full = none → ∀ s ∈ ss, s.start ≤ o → o < s.stop → False := by
    intro hn s hs h1 h2
    obtain ⟨r, hr, hp, hm⟩ := least (fun s => s.start ≤ o ∧ o < s.stop) ⟨s, hs, h1, h2⟩
    have := (hfull' r).2 ⟨hr, hp.1, hp.2, fun s hs h1 h2 => hm s hs ⟨h1, h2⟩⟩
    rw [hn] at this
    cases this
  have hen : empty = none → ∀ s ∈ ss, s.stop ≤ s.start → s.start = o → False := by
    intro hn s hs h1 h2
    obtain ⟨r, hr, hp, hm⟩ := least (fun s => s.stop ≤ s.start ∧ s.start = o) ⟨s, hs, h1, h2⟩
    have := (hempty' r).2 ⟨hr, hp.1, hp.2, fun s hs h1 h2 => hm s hs ⟨h1, h2⟩⟩
    rw [hn] at this
    cases this
  have inner : ∀ r, Innermost ss o r ↔ r ∈ ss ∧ Covers r o ∧ ∀ s ∈ ss, Covers s o → r ≤ s := by
    intro r; simp only [Innermost, not_better_iff]
  have unique : ∀ r r', Innermost ss o r → Innermost ss o r' → r = r' := by
    intro r r' h1 h2
    rw [inner] at h1 h2
    exact le_antisymm (h1.2.2 r' h2.1 h2.2.1) (h2.2.2 r h1.1 h1.2.1)
  have finish : ∀ r', Innermost ss o r' → (some r' = some r ↔ Innermost ss o r) := by
    intro r' h'
    rw [Option.some.injEq]
    constructor
    · rintro rfl; exact h'
    · intro h; exact unique _ _ h' h
  cases hf : full with
  | none =>
    cases he : empty with
    | none =>
      constructor
      · intro h; cases h
      · rintro ⟨hr, hc, _⟩
        rcases hc with ⟨h1, h2⟩ | ⟨h1, h2⟩
        · exact (hfn hf r hr h1 h2).elim
        · exact (hen he r hr h1 h2.symm).elim
    | some e =>
      obtain ⟨h1, h2, h3, h4⟩ := (hempty' e).1 he
      refine finish e ((inner e).2 ⟨h1, .inr ⟨h2, h3.symm⟩, ?_⟩)
      rintro s hs (⟨h5, h6⟩ | ⟨h5, h6⟩)
      · exact (hfn hf s hs h5 h6).elim
      · exact h4 s hs h5 h6.symm
  | some b =>
    obtain ⟨b1, b2, b3, b4⟩ := (hfull' b).1 hf
    cases he : empty with
    | none =>
      refine finish b ((inner b).2 ⟨b1, .inl ⟨b2, b3⟩, ?_⟩)
      rintro s hs (⟨h5, h6⟩ | ⟨h5, h6⟩)
      · exact b4 s hs h5 h6
      · exact (hen he s hs h5 h6.symm).elim
    | some e =>
      obtain ⟨h1, h2, h3, h4⟩ := (hempty' e).1 he
      refine finish _ ((inner _).2 ⟨?_, ?_, ?_⟩)
      · rcases le_total b e with h | h
        · rw [min_eq_left h]; assumption
        · rw [min_eq_right h]; assumption
      · rcases le_total b e with h | h <;> simp only [min_eq_left h, min_eq_right h]
        · exact .inl ⟨b2, b3⟩
        · exact .inr ⟨h2, h3.symm⟩
      · rintro s hs (⟨h5, h6⟩ | ⟨h5, h6⟩)
        · exact (min_le_left _ _).trans (b4 s hs h5 h6)
        · exact (min_le_right _ _).trans (h4 s hs h5 h6.symm)

end Verif.Spans
