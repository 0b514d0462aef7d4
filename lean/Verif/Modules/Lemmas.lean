import Verif.Modules.Spec
import Verif.Values.Lemmas
/-!
# Modules: lemmas
-/

namespace Verif.Modules

open Verif.Values (cmpUtf16 cmpSlice encodeUtf16 cmpIter_eq cmpSlice_eq cmpSlice_swap cmpSlice_trans
  IsScalar encode_inj)

/-! ## Sorting -/

/-- A comparison function that orders totally. -/
structure CmpOK {α : Type} (cmp : α → α → Ordering) : Prop where
  swap : ∀ a b, (cmp a b).swap = cmp b a
  trans : ∀ a b c, cmp a b ≠ .gt → cmp b c ≠ .gt → cmp a c ≠ .gt

theorem insertBy_perm {α : Type} (cmp : α → α → Ordering) (x : α) (l : List α) :
    (insertBy cmp x l).Perm (x :: l) := by
  induction l with
  | nil => exact List.Perm.refl _
  | cons y ys ih =>
    unfold insertBy
    split
    · exact (ih.cons y).trans (List.Perm.swap x y ys)
    · exact List.Perm.refl _

theorem sortBy_perm {α : Type} (cmp : α → α → Ordering) (l : List α) : (sortBy cmp l).Perm l := by
  induction l with
  | nil => exact List.Perm.refl _
  | cons x xs ih => exact (insertBy_perm cmp x _).trans (ih.cons x)

theorem insertBy_sorted {α : Type} {cmp : α → α → Ordering} (h : CmpOK cmp) (x : α) (l : List α)
    (hl : l.Pairwise (fun a b => cmp a b ≠ .gt)) :
    (insertBy cmp x l).Pairwise (fun a b => cmp a b ≠ .gt) := by
  induction l with
  | nil => exact List.pairwise_singleton _ _
  | cons y ys ih =>
    obtain ⟨h1, h2⟩ := List.pairwise_cons.1 hl
    unfold insertBy
    by_cases hg : cmp x y = .gt
    · rw [if_pos hg]
      refine List.pairwise_cons.2 ⟨fun z hz => ?_, ih h2⟩
      rcases List.mem_cons.1 ((insertBy_perm cmp x ys).subset hz) with rfl | hz
      · rw [← h.swap, hg]; simp
      · exact h1 z hz
    · rw [if_neg hg]
      refine List.pairwise_cons.2 ⟨fun z hz => ?_, hl⟩
      rcases List.mem_cons.1 hz with rfl | hz
      · exact hg
      · exact h.trans _ _ _ hg (h1 z hz)

theorem sortBy_sorted {α : Type} {cmp : α → α → Ordering} (h : CmpOK cmp) (l : List α) :
    (sortBy cmp l).Pairwise (fun a b => cmp a b ≠ .gt) := by
  induction l with
  | nil => exact List.Pairwise.nil
  | cons x xs ih => exact insertBy_sorted h x _ ih

theorem cmpUtf16_ok : CmpOK cmpUtf16 where
  swap a b := by unfold cmpUtf16; rw [cmpIter_eq, cmpIter_eq]; exact cmpSlice_swap _ _
  trans a b c := by
    unfold cmpUtf16
    simp only [cmpIter_eq]
    intro h1 h2
    cases e1 : cmpSlice (encodeUtf16 a) (encodeUtf16 b) with
    | gt => exact absurd e1 h1
    | eq => rw [(cmpSlice_eq _ _).1 e1]; exact h2
    | lt =>
      cases e2 : cmpSlice (encodeUtf16 b) (encodeUtf16 c) with
      | gt => exact absurd e2 h2
      | eq => rw [← (cmpSlice_eq _ _).1 e2, e1]; simp
      | lt => rw [cmpSlice_trans e1 e2]; simp

theorem cmpUtf16_eq_iff (a b : Str) : cmpUtf16 a b = .eq ↔ encodeUtf16 a = encodeUtf16 b := by
  unfold cmpUtf16; rw [cmpIter_eq]; exact cmpSlice_eq _ _

theorem cmpUtf16_congr_left {a a' : Str} (h : encodeUtf16 a = encodeUtf16 a') (b : Str) :
    cmpUtf16 a b = cmpUtf16 a' b := by unfold cmpUtf16; rw [h]

theorem cmpUtf16_congr_right {a a' : Str} (h : encodeUtf16 a = encodeUtf16 a') (b : Str) :
    cmpUtf16 b a = cmpUtf16 b a' := by unfold cmpUtf16; rw [h]

theorem cmpUtf16_lt_trans {a b c : Str} (h1 : cmpUtf16 a b = .lt) (h2 : cmpUtf16 b c = .lt) :
    cmpUtf16 a c = .lt := by
  unfold cmpUtf16 at *
  simp only [cmpIter_eq] at *
  exact cmpSlice_trans h1 h2

theorem cmpAttr_ok : CmpOK cmpAttr where
  swap a b := by
    unfold cmpAttr
    rw [← cmpUtf16_ok.swap a.key b.key, ← cmpUtf16_ok.swap a.value b.value]
    cases cmpUtf16 a.key b.key <;> simp [Ordering.swap]
  trans a b c := by
    unfold cmpAttr
    intro h1 h2
    cases e1 : cmpUtf16 a.key b.key with
    | gt => rw [e1] at h1; exact absurd rfl h1
    | eq =>
      rw [e1] at h1
      rw [cmpUtf16_congr_left ((cmpUtf16_eq_iff _ _).1 e1)]
      cases e2 : cmpUtf16 b.key c.key with
      | gt => rw [e2] at h2; exact absurd rfl h2
      | eq => rw [e2] at h2; exact cmpUtf16_ok.trans _ _ _ h1 h2
      | lt => simp
    | lt =>
      cases e2 : cmpUtf16 b.key c.key with
      | gt => rw [e2] at h2; exact absurd rfl h2
      | eq => rw [← cmpUtf16_congr_right ((cmpUtf16_eq_iff _ _).1 e2), e1]; simp
      | lt => rw [cmpUtf16_lt_trans e1 e2]; simp

theorem cmpAttr_eq {a b : Attr}
    (ha : (∀ c ∈ a.key, IsScalar c) ∧ (∀ c ∈ a.value, IsScalar c))
    (hb : (∀ c ∈ b.key, IsScalar c) ∧ (∀ c ∈ b.value, IsScalar c)) (h : cmpAttr a b = .eq) : a = b := by
  unfold cmpAttr at h
  cases e1 : cmpUtf16 a.key b.key with
  | gt => rw [e1] at h; cases h
  | lt => rw [e1] at h; cases h
  | eq =>
    rw [e1] at h
    have k := encode_inj ha.1 hb.1 ((cmpUtf16_eq_iff _ _).1 e1)
    have v := encode_inj ha.2 hb.2 ((cmpUtf16_eq_iff _ _).1 h)
    obtain ⟨ka, va⟩ := a
    obtain ⟨kb, vb⟩ := b
    simp only at k v
    rw [k, v]

theorem antisymm_of_ok {α : Type} {cmp : α → α → Ordering} (h : CmpOK cmp) {a b : α}
    (h1 : cmp a b ≠ .gt) (h2 : cmp b a ≠ .gt) : cmp a b = .eq := by
  have := h.swap a b
  cases e : cmp a b with
  | gt => exact absurd e h1
  | eq => rfl
  | lt => rw [e] at this; exact absurd this.symm h2

/-! ## Requests -/

theorem requestsEqual_iff (l r : Request) : requestsEqual l r = true ↔
    l.specifier = r.specifier ∧ l.attributes.length = r.attributes.length ∧
      ∀ a ∈ l.attributes, a ∈ r.attributes := by
  unfold requestsEqual
  by_cases h1 : l.specifier = r.specifier
  · by_cases h2 : l.attributes.length = r.attributes.length
    · simp only [h1, h2, ne_eq, not_true_eq_false, if_false, List.all_eq_true, List.any_eq_true,
        Bool.and_eq_true, beq_iff_eq, true_and]
      constructor
      · intro h a ha
        obtain ⟨b, hb, e1, e2⟩ := h a ha
        obtain ⟨ka, va⟩ := a
        obtain ⟨kb, vb⟩ := b
        simp only at e1 e2
        subst e1; subst e2
        exact hb
      · intro h a ha
        exact ⟨a, h a ha, rfl, rfl⟩
    · simp [h1, h2]
  · simp [h1]

theorem requestsEqual_refl (r : Request) : requestsEqual r r = true :=
  (requestsEqual_iff r r).2 ⟨rfl, rfl, fun _ h => h⟩

theorem mem_of_subset_nodup {l r : List Attr} (hl : l.Nodup) (hlen : l.length = r.length)
    (hs : ∀ a ∈ l, a ∈ r) : ∀ a ∈ r, a ∈ l := by
  intro a ha
  by_cases h : a ∈ l
  · exact h
  · exfalso
    have : (a :: l).length ≤ r.length :=
      List.Nodup.length_le_of_subset (List.nodup_cons.2 ⟨h, hl⟩)
        (fun x hx => by
          rcases List.mem_cons.1 hx with rfl | hx
          · exact ha
          · exact hs x hx)
    simp at this
    omega

/-! ## Reachability for resolution -/

/-- What a module provides directly under a name. -/
def leaf (g : Graph) (q : Nat × Str) : Option Binding :=
  match g[q.1]? with
  | none => none
  | some r =>
    match r.locals.find? (fun e => e.exportName == q.2) with
    | some e => some { module := q.1, bindingName := .name e.localName }
    | none =>
      match r.indirects.find? (fun e => e.exportName == q.2) with
      | some e =>
        match r.imported e.request, e.importName with
        | some im, .all => some { module := im, bindingName := .namespace }
        | _, _ => none
      | none => none

/-- The questions a question depends on. -/
def succs (g : Graph) (q : Nat × Str) : List (Nat × Str) :=
  match g[q.1]? with
  | none => []
  | some r =>
    match r.locals.find? (fun e => e.exportName == q.2) with
    | some _ => []
    | none =>
      match r.indirects.find? (fun e => e.exportName == q.2) with
      | some e =>
        match r.imported e.request, e.importName with
        | some im, .name x => [(im, x)]
        | _, _ => []
      | none => if q.2 = default_ then [] else (r.stars.filterMap r.imported).map (fun im => (im, q.2))

theorem find_none_iff_local {r : Record} {n : Str} :
    r.locals.find? (fun e => e.exportName == n) = none ↔ ∀ e ∈ r.locals, e.exportName ≠ n := by
  simp [List.find?_eq_none]

theorem find_none_iff_indirect {r : Record} {n : Str} :
    r.indirects.find? (fun e => e.exportName == n) = none ↔ ∀ e ∈ r.indirects, e.exportName ≠ n := by
  simp [List.find?_eq_none]

theorem provides_of_leaf {g : Graph} {q : Nat × Str} {b : Binding} (h : leaf g q = some b) :
    Provides g q.1 q.2 b := by
  unfold leaf at h
  cases hg : g[q.1]? with
  | none => rw [hg] at h; cases h
  | some r =>
    rw [hg] at h
    simp only at h
    cases hl : r.locals.find? (fun e => e.exportName == q.2) with
    | some e => rw [hl] at h; cases h; exact .local_ hg hl
    | none =>
      rw [hl] at h
      simp only at h
      cases hi : r.indirects.find? (fun e => e.exportName == q.2) with
      | none => rw [hi] at h; cases h
      | some e =>
        rw [hi] at h
        simp only at h
        cases him : r.imported e.request with
        | none => rw [him] at h; cases h
        | some im =>
          rw [him] at h
          cases hn : e.importName with
          | all => rw [hn] at h; cases h; exact .namespace_ hg (find_none_iff_local.1 hl) hi him hn
          | name x => rw [hn] at h; cases h

theorem provides_of_succ {g : Graph} {q p : Nat × Str} {b : Binding} (h : p ∈ succs g q)
    (hp : Provides g p.1 p.2 b) : Provides g q.1 q.2 b := by
  unfold succs at h
  cases hg : g[q.1]? with
  | none => rw [hg] at h; cases h
  | some r =>
    rw [hg] at h
    simp only at h
    cases hl : r.locals.find? (fun e => e.exportName == q.2) with
    | some e => rw [hl] at h; cases h
    | none =>
      rw [hl] at h
      simp only at h
      cases hi : r.indirects.find? (fun e => e.exportName == q.2) with
      | none =>
        rw [hi] at h
        simp only at h
        by_cases hd : q.2 = default_
        · rw [if_pos hd] at h; cases h
        · rw [if_neg hd] at h
          obtain ⟨im, him, rfl⟩ := List.mem_map.1 h
          obtain ⟨s, hs, hs2⟩ := List.mem_filterMap.1 him
          exact .star hg (find_none_iff_local.1 hl) (find_none_iff_indirect.1 hi) hd hs hs2 hp
      | some e =>
        rw [hi] at h
        simp only at h
        cases him : r.imported e.request with
        | none => rw [him] at h; cases h
        | some im =>
          rw [him] at h
          cases hn : e.importName with
          | all => rw [hn] at h; cases h
          | name x =>
            rw [hn] at h
            simp only [List.mem_singleton] at h
            subst h
            exact .indirect hg (find_none_iff_local.1 hl) hi him hn hp

/-- A set that is closed under dependencies and contains a question that provides a binding contains a
question that provides it directly. -/
theorem leaf_in_closed {g : Graph} {S : List (Nat × Str)}
    (hS : ∀ p ∈ S, ∀ s ∈ succs g p, s ∈ S) {m : Nat} {n : Str} {b : Binding} (h : Provides g m n b) :
    (m, n) ∈ S → ∃ p ∈ S, leaf g p = some b := by
  induction h with
  | local_ hg hl => intro h; exact ⟨_, h, by simp only [leaf, hg, hl]⟩
  | namespace_ hg hl hi him hn =>
    intro h
    exact ⟨_, h, by simp only [leaf, hg, find_none_iff_local.2 hl, hi, him, hn]⟩
  | indirect hg hl hi him hn hp ih =>
    intro h
    apply ih
    apply hS _ h
    simp only [succs, hg, find_none_iff_local.2 hl, hi, him, hn, List.mem_singleton]
  | @star m n r q im _ hg hl hi hd hq him hp ih =>
    intro h
    apply ih
    apply hS _ h
    simp only [succs, hg, find_none_iff_local.2 hl, find_none_iff_indirect.2 hi, if_neg hd]
    exact List.mem_map.2 ⟨im, List.mem_filterMap.2 ⟨q, hq, him⟩, rfl⟩

/-- What a call of `resolve` guarantees. -/
structure ResOK (g : Graph) (q : Nat × Str) (R : ResolveSet) (res : Resolution) (R' : ResolveSet) :
    Prop where
  mono : ∀ p ∈ R, p ∈ R'
  root : q ∈ R'
  closed : res ≠ .ambiguous → ∀ p ∈ R', p ∉ R → ∀ s ∈ succs g p, s ∈ R'
  found : res ≠ .ambiguous → ∀ p ∈ R', p ∉ R → ∀ b, leaf g p = some b → res = .resolved b
  sound : ∀ b, res = .resolved b → Provides g q.1 q.2 b
  two : res = .ambiguous → ∃ b1 b2, b1 ≠ b2 ∧ Provides g q.1 q.2 b1 ∧ Provides g q.1 q.2 b2

/-- What the star loop guarantees. -/
structure LoopOK (g : Graph) (n : Str) (ims : List Nat) (acc : Option Binding) (R : ResolveSet)
    (res : Resolution) (R' : ResolveSet) : Prop where
  mono : ∀ p ∈ R, p ∈ R'
  root : res ≠ .ambiguous → ∀ im ∈ ims, (im, n) ∈ R'
  closed : res ≠ .ambiguous → ∀ p ∈ R', p ∉ R → ∀ s ∈ succs g p, s ∈ R'
  found : res ≠ .ambiguous → ∀ p ∈ R', p ∉ R → ∀ b, leaf g p = some b → res = .resolved b
  keep : res ≠ .ambiguous → ∀ b, acc = some b → res = .resolved b
  sound : ∀ b, res = .resolved b → acc = some b ∨ ∃ im ∈ ims, Provides g im n b
  two : res = .ambiguous → ∃ b1 b2, b1 ≠ b2 ∧ (acc = some b1 ∨ ∃ im ∈ ims, Provides g im n b1) ∧
    (acc = some b2 ∨ ∃ im ∈ ims, Provides g im n b2)

theorem starLoop_ok {g : Graph} {n : Str} {r : Record}
    {rec : Nat → ResolveSet → Option (Resolution × ResolveSet)}
    (hrec : ∀ im R res R', rec im R = some (res, R') → ResOK g (im, n) R res R') :
    ∀ (qs : List Request) (acc : Option Binding) (R : ResolveSet) (res : Resolution) (R' : ResolveSet),
      starLoop rec r qs acc R = some (res, R') → LoopOK g n (qs.filterMap r.imported) acc R res R' := by
  intro qs
  induction qs with
  | nil =>
    intro acc R res R' h
    cases acc with
    | none =>
      simp only [starLoop, Option.some.injEq, Prod.mk.injEq] at h
      obtain ⟨rfl, rfl⟩ := h
      exact ⟨fun _ h => h, by simp, fun _ p hp hn => absurd hp hn, fun _ p hp hn => absurd hp hn,
        by simp, by simp, by simp⟩
    | some b =>
      simp only [starLoop, Option.some.injEq, Prod.mk.injEq] at h
      obtain ⟨rfl, rfl⟩ := h
      exact ⟨fun _ h => h, by simp, fun _ p hp hn => absurd hp hn, fun _ p hp hn => absurd hp hn,
        by simp, by simp, by simp⟩
  | cons q qs ih =>
    intro acc R res R' h
    simp only [starLoop] at h
    cases him : r.imported q with
    | none =>
      rw [him] at h
      rw [List.filterMap_cons_none him]
      exact ih acc R res R' h
    | some im =>
      rw [him] at h
      rw [List.filterMap_cons_some him]
      simp only at h
      cases hr : rec im R with
      | none => rw [hr] at h; cases h
      | some p =>
        obtain ⟨res1, R1⟩ := p
        have k := hrec im R res1 R1 hr
        rw [hr] at h
        -- continuing the loop after a call that was not ambiguous
        have cont : ∀ acc', res1 ≠ .ambiguous → (∀ b, res1 = .resolved b → acc' = some b) →
            (∀ b, acc = some b → acc' = some b) →
            (∀ b, acc' = some b → acc = some b ∨ res1 = .resolved b) →
            starLoop rec r qs acc' R1 = some (res, R') →
            LoopOK g n (im :: qs.filterMap r.imported) acc R res R' := by
          intro acc' hna h1 h2 h3 hl
          have l := ih acc' R1 res R' hl
          have src : ∀ b, (acc' = some b ∨ ∃ i ∈ qs.filterMap r.imported, Provides g i n b) →
              (acc = some b ∨ ∃ i ∈ im :: qs.filterMap r.imported, Provides g i n b) := by
            rintro b (hb | ⟨i, hi, hp⟩)
            · rcases h3 b hb with h | h
              · exact .inl h
              · exact .inr ⟨im, List.mem_cons_self .., k.sound b h⟩
            · exact .inr ⟨i, List.mem_cons_of_mem _ hi, hp⟩
          refine ⟨fun p hp => l.mono p (k.mono p hp), ?_, ?_, ?_, ?_, ?_, ?_⟩
          · intro hr' i hi
            rcases List.mem_cons.1 hi with rfl | hi
            · exact l.mono _ k.root
            · exact l.root hr' i hi
          · intro hr' p hp hn s hs
            by_cases hp1 : p ∈ R1
            · exact l.mono _ (k.closed hna p hp1 hn s hs)
            · exact l.closed hr' p hp hp1 s hs
          · intro hr' p hp hn b hb
            by_cases hp1 : p ∈ R1
            · exact l.keep hr' b (h1 b (k.found hna p hp1 hn b hb))
            · exact l.found hr' p hp hp1 b hb
          · intro hr' b hb
            exact l.keep hr' b (h2 b hb)
          · intro b hb
            exact src b (l.sound b hb)
          · intro hr'
            obtain ⟨b1, b2, hne, s1, s2⟩ := l.two hr'
            exact ⟨b1, b2, hne, src b1 s1, src b2 s2⟩
        cases res1 with
        | ambiguous =>
          simp only [Option.some.injEq, Prod.mk.injEq] at h
          obtain ⟨rfl, rfl⟩ := h
          refine ⟨k.mono, by simp, by simp, by simp, by simp, by simp, fun _ => ?_⟩
          obtain ⟨b1, b2, hne, p1, p2⟩ := k.two rfl
          exact ⟨b1, b2, hne, .inr ⟨im, List.mem_cons_self .., p1⟩, .inr ⟨im, List.mem_cons_self .., p2⟩⟩
        | notFound =>
          simp only at h
          exact cont acc (by simp) (by simp) (fun _ h => h) (fun _ h => .inl h) h
        | resolved b =>
          simp only at h
          cases acc with
          | none =>
            simp only at h
            exact cont (some b) (by simp) (by simp) (by simp) (fun b' hb => .inr (by simp at hb; rw [hb])) h
          | some e =>
            simp only at h
            by_cases he : e = b
            · rw [if_pos he] at h
              subst he
              exact cont (some e) (by simp) (by simp) (fun _ h => h) (fun _ h => .inl h) h
            · rw [if_neg he] at h
              simp only [Option.some.injEq, Prod.mk.injEq] at h
              obtain ⟨rfl, rfl⟩ := h
              exact ⟨k.mono, by simp, by simp, by simp, by simp, by simp, fun _ =>
                ⟨e, b, he, .inl rfl, .inr ⟨im, List.mem_cons_self .., k.sound b rfl⟩⟩⟩

theorem resolve_ok {g : Graph} : ∀ (fuel m : Nat) (n : Str) (R : ResolveSet) (res : Resolution)
    (R' : ResolveSet), resolve g fuel m n R = some (res, R') → ResOK g (m, n) R res R' := by
  intro fuel
  induction fuel with
  | zero => intro m n R res R' h; cases h
  | succ fuel ih =>
    intro m n R res R' h
    simp only [resolve] at h
    by_cases hin : (m, n) ∈ R
    · rw [if_pos hin] at h
      simp only [Option.some.injEq, Prod.mk.injEq] at h
      obtain ⟨rfl, rfl⟩ := h
      exact ⟨fun _ h => h, hin, fun _ p hp hn => absurd hp hn, fun _ p hp hn => absurd hp hn, by simp,
        by simp⟩
    · rw [if_neg hin] at h
      cases hg : g[m]? with
      | none => rw [hg] at h; cases h
      | some r =>
        rw [hg] at h
        simp only at h
        have only : ∀ p ∈ R ++ [(m, n)], p ∉ R → p = (m, n) := by
          intro p hp hn
          rcases List.mem_append.1 hp with h | h
          · exact absurd h hn
          · simpa using h
        -- a call that only looks at this module
        have done : ∀ res0, res0 ≠ .ambiguous → succs g (m, n) = [] →
            (∀ b, leaf g (m, n) = some b ↔ res0 = .resolved b) →
            ResOK g (m, n) R res0 (R ++ [(m, n)]) := by
          intro res0 hna hs hl
          refine ⟨fun p hp => List.mem_append_left _ hp, by simp, ?_, ?_, ?_, fun h => absurd h hna⟩
          · intro _ p hp hn s hs'
            rw [only p hp hn, hs] at hs'
            cases hs'
          · intro _ p hp hn b hb
            rw [only p hp hn] at hb
            exact (hl b).1 hb
          · intro b hb
            exact provides_of_leaf ((hl b).2 hb)
        cases hl : r.locals.find? (fun e => e.exportName == n) with
        | some e =>
          rw [hl] at h
          simp only [Option.some.injEq, Prod.mk.injEq] at h
          obtain ⟨rfl, rfl⟩ := h
          exact done _ (by simp) (by simp only [succs, hg, hl]) (fun b => by simp only [leaf, hg, hl, Option.some.injEq, Resolution.resolved.injEq])
        | none =>
          rw [hl] at h
          simp only at h
          cases hi : r.indirects.find? (fun e => e.exportName == n) with
          | some e =>
            rw [hi] at h
            simp only at h
            cases him : r.imported e.request with
            | none =>
              rw [him] at h
              simp only [Option.some.injEq, Prod.mk.injEq] at h
              obtain ⟨rfl, rfl⟩ := h
              exact done _ (by simp) (by simp only [succs, hg, hl, hi, him])
                (fun b => by simp only [leaf, hg, hl, hi, him, reduceCtorEq])
            | some im =>
              rw [him] at h
              simp only at h
              cases hn : e.importName with
              | all =>
                rw [hn] at h
                simp only [Option.some.injEq, Prod.mk.injEq] at h
                obtain ⟨rfl, rfl⟩ := h
                exact done _ (by simp) (by simp only [succs, hg, hl, hi, him, hn])
                  (fun b => by simp only [leaf, hg, hl, hi, him, hn, Option.some.injEq, Resolution.resolved.injEq])
              | name x =>
                rw [hn] at h
                simp only at h
                have k := ih im x _ res R' h
                have hs : succs g (m, n) = [(im, x)] := by simp only [succs, hg, hl, hi, him, hn]
                have hlf : leaf g (m, n) = none := by simp only [leaf, hg, hl, hi, him, hn]
                have up : ∀ b, Provides g im x b → Provides g m n b := fun b hb =>
                  provides_of_succ (q := (m, n)) (p := (im, x)) (by rw [hs]; simp) hb
                refine ⟨fun p hp => k.mono p (List.mem_append_left _ hp), k.mono _ (by simp), ?_, ?_, ?_, ?_⟩
                · intro hna p hp hnR s hs'
                  by_cases hpr : p ∈ R ++ [(m, n)]
                  · rw [only p hpr hnR, hs] at hs'
                    simp only [List.mem_singleton] at hs'
                    rw [hs']
                    exact k.root
                  · exact k.closed hna p hp hpr s hs'
                · intro hna p hp hnR b hb
                  by_cases hpr : p ∈ R ++ [(m, n)]
                  · rw [only p hpr hnR, hlf] at hb; cases hb
                  · exact k.found hna p hp hpr b hb
                · intro b hb; exact up b (k.sound b hb)
                · intro ha
                  obtain ⟨b1, b2, hne, p1, p2⟩ := k.two ha
                  exact ⟨b1, b2, hne, up b1 p1, up b2 p2⟩
          | none =>
            rw [hi] at h
            simp only at h
            by_cases hd : n = default_
            · rw [if_pos hd] at h
              simp only [Option.some.injEq, Prod.mk.injEq] at h
              obtain ⟨rfl, rfl⟩ := h
              exact done _ (by simp) (by simp only [succs, hg, hl, hi, if_pos hd])
                (fun b => by simp only [leaf, hg, hl, hi, reduceCtorEq])
            · rw [if_neg hd] at h
              have k := starLoop_ok (g := g) (n := n) (r := r)
                (fun im R res R' h => ih im n R res R' h) r.stars none _ res R' h
              have hs : succs g (m, n) = (r.stars.filterMap r.imported).map (fun im => (im, n)) := by
                simp only [succs, hg, hl, hi, if_neg hd]
              have hlf : leaf g (m, n) = none := by simp only [leaf, hg, hl, hi]
              have up : ∀ b, (none = some b ∨ ∃ im ∈ r.stars.filterMap r.imported, Provides g im n b) →
                  Provides g m n b := by
                rintro b (h | ⟨im, him, hp⟩)
                · cases h
                · exact provides_of_succ (q := (m, n)) (p := (im, n))
                    (by rw [hs]; exact List.mem_map.2 ⟨im, him, rfl⟩) hp
              refine ⟨fun p hp => k.mono p (List.mem_append_left _ hp), k.mono _ (by simp), ?_, ?_, ?_, ?_⟩
              · intro hna p hp hnR s hs'
                by_cases hpr : p ∈ R ++ [(m, n)]
                · rw [only p hpr hnR, hs] at hs'
                  obtain ⟨im, him, rfl⟩ := List.mem_map.1 hs'
                  exact k.root hna im him
                · exact k.closed hna p hp hpr s hs'
              · intro hna p hp hnR b hb
                by_cases hpr : p ∈ R ++ [(m, n)]
                · rw [only p hpr hnR, hlf] at hb; cases hb
                · exact k.found hna p hp hpr b hb
              · intro b hb; exact up b (k.sound b hb)
              · intro ha
                obtain ⟨b1, b2, hne, p1, p2⟩ := k.two ha
                exact ⟨b1, b2, hne, up b1 p1, up b2 p2⟩

/-! ## Termination of resolution -/

/-- The names that occur as import names in indirect exports. -/
def importNames (g : Graph) : List Str :=
  (g.flatMap (·.indirects)).map (fun e => match e.importName with | .name x => x | .all => default_)

/-- All questions that a question about the name `n` can lead to. -/
def univ (g : Graph) (n : Str) : List (Nat × Str) :=
  (List.range g.length).flatMap (fun m => (n :: importNames g).map (fun x => (m, x)))

theorem mem_univ {g : Graph} {n : Str} {m : Nat} {x : Str} :
    (m, x) ∈ univ g n ↔ m < g.length ∧ (x = n ∨ x ∈ importNames g) := by
  unfold univ
  simp only [List.mem_flatMap, List.mem_range, List.mem_map, List.mem_cons, Prod.mk.injEq]
  constructor
  · rintro ⟨m', hm, x', hx, rfl, rfl⟩; exact ⟨hm, hx⟩
  · rintro ⟨hm, hx⟩; exact ⟨m, hm, x, hx, rfl, rfl⟩

theorem univ_length (g : Graph) (n : Str) : (univ g n).length + 1 = enoughFuel g := by
  unfold univ enoughFuel importNames
  rw [List.length_flatMap]
  simp only [List.length_map, List.length_cons]
  have : ∀ (l : List Nat) (k : Nat), (l.map (fun _ => k)).sum = l.length * k := by
    intro l k
    induction l with
    | nil => simp
    | cons a l ih => simp [ih, Nat.add_mul]; omega
  rw [this, List.length_range, Nat.add_comm 1]

/-- Questions not asked yet. -/
def todo (U : List (Nat × Str)) (R : ResolveSet) : Nat := (U.filter (fun q => q ∉ R)).length

theorem todo_mono {U : List (Nat × Str)} {R R' : ResolveSet} (h : ∀ p ∈ R, p ∈ R') :
    todo U R' ≤ todo U R := by
  unfold todo
  induction U with
  | nil => simp
  | cons q U ih =>
    simp only [List.filter_cons]
    by_cases h1 : q ∈ R
    · have h2 := h q h1
      simp only [h1, h2]; simpa using ih
    · by_cases h2 : q ∈ R'
      · simp [h1, h2]; simp at ih; omega
      · simp [h1, h2]; simp at ih; omega

theorem todo_lt {U : List (Nat × Str)} {R : ResolveSet} {q : Nat × Str} (hU : q ∈ U) (hR : q ∉ R) :
    todo U (R ++ [q]) < todo U R := by
  unfold todo
  induction U with
  | nil => cases hU
  | cons p U ih =>
    simp only [List.filter_cons]
    by_cases hpq : p = q
    · subst hpq
      have hm := todo_mono (U := U) (R := R) (R' := R ++ [p]) (fun _ h => List.mem_append_left _ h)
      unfold todo at hm
      simp [hR]
      simp at hm
      omega
    · have hU' : q ∈ U := by
        rcases List.mem_cons.1 hU with h | h
        · exact absurd h.symm hpq
        · exact h
      have := ih hU'
      by_cases h1 : p ∈ R
      · simp [h1]; simpa using this
      · have h2 : ¬ (p ∈ R ++ [q]) := by simp [h1, hpq]
        simp only [h1, h2, not_false_eq_true, decide_true, if_true, List.length_cons]
        omega

theorem imported_lt {g : Graph} (hw : WellLinked g) {m : Nat} {r : Record} (hg : g[m]? = some r)
    {q : Request} {im : Nat} (h : r.imported q = some im) : im < g.length := by
  unfold Record.imported at h
  cases hf : r.loaded.find? (fun l => requestsEqual l.1 q) with
  | none => rw [hf] at h; cases h
  | some l =>
    rw [hf] at h
    cases h
    exact hw r (List.mem_of_getElem? hg) l (List.mem_of_find?_eq_some hf)

theorem starLoop_total {U : List (Nat × Str)} {g : Graph} {n : Str} {r : Record} {k : Nat}
    {rec : Nat → ResolveSet → Option (Resolution × ResolveSet)}
    (hrec : ∀ im R res R', rec im R = some (res, R') → ResOK g (im, n) R res R')
    (htot : ∀ im R, (im, n) ∈ U → todo U R < k → ∃ p, rec im R = some p) :
    ∀ (qs : List Request) (acc : Option Binding) (R : ResolveSet),
      (∀ q ∈ qs, ∀ im, r.imported q = some im → (im, n) ∈ U) → todo U R < k →
      ∃ p, starLoop rec r qs acc R = some p := by
  intro qs
  induction qs with
  | nil => intro acc R _ _; cases acc <;> exact ⟨_, rfl⟩
  | cons q qs ih =>
    intro acc R hq hR
    have hq' : ∀ q ∈ qs, ∀ im, r.imported q = some im → (im, n) ∈ U :=
      fun q h => hq q (List.mem_cons_of_mem _ h)
    simp only [starLoop]
    cases him : r.imported q with
    | none => exact ih acc R hq' hR
    | some im =>
      simp only
      obtain ⟨⟨res1, R1⟩, hr⟩ := htot im R (hq q (List.mem_cons_self ..) im him) hR
      have hm := todo_mono (U := U) (hrec im R res1 R1 hr).mono
      rw [hr]
      cases res1 with
      | ambiguous => exact ⟨_, rfl⟩
      | notFound => exact ih acc R1 hq' (by omega)
      | resolved b =>
        cases acc with
        | none => exact ih (some b) R1 hq' (by omega)
        | some e =>
          simp only
          by_cases he : e = b
          · rw [if_pos he]; exact ih (some e) R1 hq' (by omega)
          · rw [if_neg he]; exact ⟨_, rfl⟩

theorem resolve_total {g : Graph} (hw : WellLinked g) (n0 : Str) :
    ∀ (fuel m : Nat) (n : Str) (R : ResolveSet), (m, n) ∈ univ g n0 →
      todo (univ g n0) R < fuel → ∃ p, resolve g fuel m n R = some p := by
  intro fuel
  induction fuel with
  | zero => intro m n R _ h; omega
  | succ fuel ih =>
    intro m n R hU hf
    obtain ⟨hm, hn⟩ := mem_univ.1 hU
    simp only [resolve]
    by_cases hin : (m, n) ∈ R
    · rw [if_pos hin]; exact ⟨_, rfl⟩
    · rw [if_neg hin]
      have hlt := todo_lt hU hin
      have hg : g[m]? = some g[m] := List.getElem?_eq_getElem hm
      rw [hg]
      simp only
      cases hl : g[m].locals.find? (fun e => e.exportName == n) with
      | some e => exact ⟨_, rfl⟩
      | none =>
        simp only
        cases hi : g[m].indirects.find? (fun e => e.exportName == n) with
        | some e =>
          simp only
          cases him : g[m].imported e.request with
          | none => exact ⟨_, rfl⟩
          | some im =>
            simp only
            cases hnm : e.importName with
            | all => exact ⟨_, rfl⟩
            | name x =>
              simp only
              refine ih im x _ (mem_univ.2 ⟨imported_lt hw hg him, .inr ?_⟩) (by omega)
              refine List.mem_map.2 ⟨e, List.mem_flatMap.2 ⟨g[m], List.getElem_mem hm, ?_⟩, by rw [hnm]⟩
              exact List.mem_of_find?_eq_some hi
        | none =>
          simp only
          by_cases hd : n = default_
          · rw [if_pos hd]; exact ⟨_, rfl⟩
          · rw [if_neg hd]
            refine starLoop_total (U := univ g n0) (k := fuel) (g := g) (n := n)
              (fun im R res R' h => resolve_ok fuel im n R res R' h)
              (fun im R h1 h2 => ih im n R h1 h2) _ _ _ ?_ (by omega)
            intro q _ im him
            exact mem_univ.2 ⟨imported_lt hw hg him, hn⟩

/-! ## Exported names -/

theorem mem_addNames {acc ns : List Str} {n : Str} :
    n ∈ addNames acc ns ↔ n ∈ acc ∨ (n ≠ default_ ∧ n ∈ ns) := by
  induction ns generalizing acc with
  | nil => simp [addNames]
  | cons x ns ih =>
    simp only [addNames]
    by_cases hd : x = default_
    · rw [if_pos hd, ih]
      simp only [List.mem_cons]
      constructor
      · rintro (h | ⟨h1, h2⟩)
        · exact .inl h
        · exact .inr ⟨h1, .inr h2⟩
      · rintro (h | ⟨h1, h | h⟩)
        · exact .inl h
        · exact absurd (h.trans hd) h1
        · exact .inr ⟨h1, h⟩
    · rw [if_neg hd]
      by_cases hx : x ∈ acc
      · rw [if_pos hx, ih]
        simp only [List.mem_cons]
        constructor
        · rintro (h | ⟨h1, h2⟩)
          · exact .inl h
          · exact .inr ⟨h1, .inr h2⟩
        · rintro (h | ⟨h1, rfl | h⟩)
          · exact .inl h
          · exact .inl hx
          · exact .inr ⟨h1, h⟩
      · rw [if_neg hx, ih]
        rw [List.mem_append, List.mem_singleton, List.mem_cons]
        constructor
        · rintro ((h | rfl) | ⟨h1, h2⟩)
          · exact .inl h
          · exact .inr ⟨hd, .inl rfl⟩
          · exact .inr ⟨h1, .inr h2⟩
        · rintro (h | ⟨h1, h | h⟩)
          · exact .inl (.inl h)
          · exact .inl (.inr h)
          · exact .inr ⟨h1, h⟩

theorem addNames_append (acc ns : List Str) : ∃ rest, addNames acc ns = acc ++ rest := by
  induction ns generalizing acc with
  | nil => exact ⟨[], by simp [addNames]⟩
  | cons x ns ih =>
    simp only [addNames]
    split
    · exact ih acc
    · split
      · exact ih acc
      · obtain ⟨rest, h⟩ := ih (acc ++ [x])
        exact ⟨x :: rest, by rw [h]; simp⟩

theorem addNames_rest {acc ns rest : List Str} (h : addNames acc ns = acc ++ rest) :
    ∀ n ∈ rest, n ≠ default_ := by
  induction ns generalizing acc rest with
  | nil =>
    simp only [addNames] at h
    have : rest = [] := by simpa using h
    subst this
    intro n hn; cases hn
  | cons x xs ih =>
    simp only [addNames] at h
    split at h
    · exact ih h
    · split at h
      · exact ih h
      · rename_i hx _
        obtain ⟨r2, h2⟩ := addNames_append (acc ++ [x]) xs
        rw [h2, List.append_assoc, List.append_cancel_left_eq] at h
        subst h
        intro n hn
        rcases List.mem_append.1 hn with hn | hn
        · simp only [List.mem_singleton] at hn; subst hn; exact hx
        · exact ih h2 n hn

theorem addNames_nodup {acc ns : List Str} (h : acc.Nodup) : (addNames acc ns).Nodup := by
  induction ns generalizing acc with
  | nil => exact h
  | cons x ns ih =>
    simp only [addNames]
    split
    · exact ih h
    · split
      · exact ih h
      · rename_i hx
        apply ih
        rw [List.nodup_append]
        refine ⟨h, by simp, ?_⟩
        intro a ha b hb
        simp only [List.mem_singleton] at hb
        subst hb
        rintro rfl
        exact hx ha

/-- The modules a module star-exports. -/
def starSuccs (g : Graph) (m : Nat) : List Nat :=
  match g[m]? with
  | none => []
  | some r => r.stars.filterMap r.imported

/-- The names a module of the graph exports itself. -/
def own (g : Graph) (m : Nat) : List Str :=
  match g[m]? with
  | none => []
  | some r => r.ownNames

theorem exports_of_own {g : Graph} {m : Nat} {n : Str} (h : n ∈ own g m) : Exports g m n := by
  unfold own at h
  cases hg : g[m]? with
  | none => rw [hg] at h; cases h
  | some r =>
    rw [hg] at h
    simp only [Record.ownNames, List.mem_append, List.mem_map] at h
    rcases h with ⟨e, he, rfl⟩ | ⟨e, he, rfl⟩
    · exact .local_ hg ⟨e, he, rfl⟩
    · exact .indirect hg ⟨e, he, rfl⟩

theorem exports_of_star {g : Graph} {m im : Nat} {n : Str} (hd : n ≠ default_) (h : im ∈ starSuccs g m)
    (hp : Exports g im n) : Exports g m n := by
  unfold starSuccs at h
  cases hg : g[m]? with
  | none => rw [hg] at h; cases h
  | some r =>
    rw [hg] at h
    obtain ⟨s, hs, hs2⟩ := List.mem_filterMap.1 h
    exact .star hg hd hs hs2 hp

theorem own_of_exports_default {g : Graph} {m : Nat} {n : Str} (h : Exports g m n) (hd : n = default_) :
    n ∈ own g m := by
  cases h with
  | local_ hg he =>
    obtain ⟨e, he, rfl⟩ := he
    simp only [own, hg, Record.ownNames, List.mem_append, List.mem_map]
    exact .inl ⟨e, he, rfl⟩
  | indirect hg he =>
    obtain ⟨e, he, rfl⟩ := he
    simp only [own, hg, Record.ownNames, List.mem_append, List.mem_map]
    exact .inr ⟨e, he, rfl⟩
  | star hg h _ _ _ => exact absurd hd h

theorem own_in_closed {g : Graph} {S : List Nat} (hS : ∀ p ∈ S, ∀ s ∈ starSuccs g p, s ∈ S) {m : Nat}
    {n : Str} (h : Exports g m n) : m ∈ S → ∃ p ∈ S, n ∈ own g p := by
  induction h with
  | @local_ m n r hg he =>
    intro hm
    obtain ⟨e, he, rfl⟩ := he
    refine ⟨m, hm, ?_⟩
    simp only [own, hg, Record.ownNames, List.mem_append, List.mem_map]
    exact .inl ⟨e, he, rfl⟩
  | @indirect m n r hg he =>
    intro hm
    obtain ⟨e, he, rfl⟩ := he
    refine ⟨m, hm, ?_⟩
    simp only [own, hg, Record.ownNames, List.mem_append, List.mem_map]
    exact .inr ⟨e, he, rfl⟩
  | @star m n r q im hg _ hq him _ ih =>
    intro hm
    apply ih
    apply hS m hm
    simp only [starSuccs, hg]
    exact List.mem_filterMap.2 ⟨q, hq, him⟩

/-- What a call of `names` guarantees. -/
structure NamesOK (g : Graph) (m : Nat) (S : List Nat) (ns : List Str) (S' : List Nat) : Prop where
  mono : ∀ p ∈ S, p ∈ S'
  root : m ∈ S'
  closed : ∀ p ∈ S', p ∉ S → ∀ s ∈ starSuccs g p, s ∈ S'
  all : ∀ p ∈ S', p ∉ S → ∀ n ∈ own g p, n ≠ default_ → n ∈ ns
  sound : ∀ n ∈ ns, Exports g m n
  fresh : m ∉ S → ∃ rest, ns = own g m ++ rest ∧ ∀ n ∈ rest, n ≠ default_
  nodup : (own g m).Nodup → ns.Nodup

/-- What the loop guarantees. -/
structure NLoopOK (g : Graph) (ims : List Nat) (acc : List Str) (S : List Nat) (ns : List Str)
    (S' : List Nat) : Prop where
  mono : ∀ p ∈ S, p ∈ S'
  root : ∀ im ∈ ims, im ∈ S'
  closed : ∀ p ∈ S', p ∉ S → ∀ s ∈ starSuccs g p, s ∈ S'
  all : ∀ p ∈ S', p ∉ S → ∀ n ∈ own g p, n ≠ default_ → n ∈ ns
  sound : ∀ n ∈ ns, n ∈ acc ∨ (n ≠ default_ ∧ ∃ im ∈ ims, Exports g im n)
  fresh : ∃ rest, ns = acc ++ rest ∧ ∀ n ∈ rest, n ≠ default_
  nodup : acc.Nodup → ns.Nodup

theorem namesLoop_ok {g : Graph} {r : Record} {rec : Nat → List Nat → Option (List Str × List Nat)}
    (hrec : ∀ im S ns S', rec im S = some (ns, S') → NamesOK g im S ns S') :
    ∀ (qs : List Request) (acc : List Str) (S : List Nat) (ns : List Str) (S' : List Nat),
      namesLoop rec r qs acc S = some (ns, S') → NLoopOK g (qs.filterMap r.imported) acc S ns S' := by
  intro qs
  induction qs with
  | nil =>
    intro acc S ns S' h
    simp only [namesLoop, Option.some.injEq, Prod.mk.injEq] at h
    obtain ⟨rfl, rfl⟩ := h
    exact ⟨fun _ h => h, by simp, fun p hp hn => absurd hp hn, fun p hp hn => absurd hp hn,
      fun _ h => .inl h, ⟨[], by simp⟩, fun h => h⟩
  | cons q qs ih =>
    intro acc S ns S' h
    simp only [namesLoop] at h
    cases him : r.imported q with
    | none =>
      rw [him] at h
      rw [List.filterMap_cons_none him]
      exact ih acc S ns S' h
    | some im =>
      rw [him] at h
      rw [List.filterMap_cons_some him]
      simp only at h
      cases hr : rec im S with
      | none => rw [hr] at h; cases h
      | some p =>
        obtain ⟨ns1, S1⟩ := p
        rw [hr] at h
        simp only at h
        have k := hrec im S ns1 S1 hr
        have l := ih _ S1 ns S' h
        obtain ⟨rest, hrest, hnd⟩ := l.fresh
        refine ⟨fun p hp => l.mono p (k.mono p hp), ?_, ?_, ?_, ?_, ?_, ?_⟩
        · intro i hi
          rcases List.mem_cons.1 hi with rfl | hi
          · exact l.mono _ k.root
          · exact l.root i hi
        · intro p hp hn s hs
          by_cases hp1 : p ∈ S1
          · exact l.mono _ (k.closed p hp1 hn s hs)
          · exact l.closed p hp hp1 s hs
        · intro p hp hn n hn1 hd
          by_cases hp1 : p ∈ S1
          · rw [hrest]
            exact List.mem_append_left _ (mem_addNames.2 (.inr ⟨hd, k.all p hp1 hn n hn1 hd⟩))
          · exact l.all p hp hp1 n hn1 hd
        · intro n hn
          rcases l.sound n hn with h | ⟨h1, i, hi, hp⟩
          · rcases mem_addNames.1 h with h | ⟨h1, h2⟩
            · exact .inl h
            · exact .inr ⟨h1, im, List.mem_cons_self .., k.sound n h2⟩
          · exact .inr ⟨h1, i, List.mem_cons_of_mem _ hi, hp⟩
        · obtain ⟨rest1, h1⟩ := addNames_append acc ns1
          refine ⟨rest1 ++ rest, by rw [hrest, h1, List.append_assoc], ?_⟩
          intro n hn
          rcases List.mem_append.1 hn with hn | hn
          · exact addNames_rest h1 n hn
          · exact hnd n hn
        · intro h
          exact l.nodup (addNames_nodup h)

theorem names_ok {g : Graph} : ∀ (fuel m : Nat) (S : List Nat) (ns : List Str) (S' : List Nat),
    names g fuel m S = some (ns, S') → NamesOK g m S ns S' := by
  intro fuel
  induction fuel with
  | zero => intro m S ns S' h; cases h
  | succ fuel ih =>
    intro m S ns S' h
    simp only [names] at h
    by_cases hin : m ∈ S
    · rw [if_pos hin] at h
      simp only [Option.some.injEq, Prod.mk.injEq] at h
      obtain ⟨rfl, rfl⟩ := h
      exact ⟨fun _ h => h, hin, fun p hp hn => absurd hp hn, fun p hp hn => absurd hp hn, by simp,
        fun h => absurd hin h, by simp⟩
    · rw [if_neg hin] at h
      cases hg : g[m]? with
      | none => rw [hg] at h; cases h
      | some r =>
        rw [hg] at h
        simp only at h
        have k := namesLoop_ok (g := g) (r := r) (fun im S ns S' h => ih im S ns S' h) _ _ _ ns S' h
        have hs : starSuccs g m = r.stars.filterMap r.imported := by simp only [starSuccs, hg]
        have ho : own g m = r.locals.map (·.exportName) ++ r.indirects.map (·.exportName) := by
          simp only [own, hg, Record.ownNames]
        rw [← ho] at k
        have only : ∀ p ∈ S ++ [m], p ∉ S → p = m := by
          intro p hp hn
          rcases List.mem_append.1 hp with h | h
          · exact absurd h hn
          · simpa using h
        obtain ⟨rest, hrest, hnd⟩ := k.fresh
        refine ⟨fun p hp => k.mono p (List.mem_append_left _ hp), k.mono _ (by simp), ?_, ?_, ?_,
          fun _ => ⟨rest, hrest, hnd⟩, k.nodup⟩
        · intro p hp hn s hs'
          by_cases hpr : p ∈ S ++ [m]
          · rw [only p hpr hn, hs] at hs'
            exact k.root s hs'
          · exact k.closed p hp hpr s hs'
        · intro p hp hn n hn1 hd
          by_cases hpr : p ∈ S ++ [m]
          · rw [only p hpr hn] at hn1
            rw [hrest]
            exact List.mem_append_left _ hn1
          · exact k.all p hp hpr n hn1 hd
        · intro n hn
          rcases k.sound n hn with h | ⟨hd, im, him, hp⟩
          · exact exports_of_own h
          · exact exports_of_star hd (by rw [hs]; exact him) hp

/-- Modules not visited yet. -/
def todoM (k : Nat) (S : List Nat) : Nat := ((List.range k).filter (fun m => m ∉ S)).length

theorem filter_mono {U S S' : List Nat} (h : ∀ p ∈ S, p ∈ S') :
    (U.filter (fun m => m ∉ S')).length ≤ (U.filter (fun m => m ∉ S)).length := by
  induction U with
  | nil => simp
  | cons q U ih =>
    simp only [List.filter_cons]
    by_cases h1 : q ∈ S
    · have h2 := h q h1
      simp only [h1, h2]; simpa using ih
    · by_cases h2 : q ∈ S'
      · simp [h1, h2]; simp at ih; omega
      · simp [h1, h2]; simp at ih; omega

theorem filter_lt {U S : List Nat} {m : Nat} (hU : m ∈ U) (hS : m ∉ S) :
    (U.filter (fun x => x ∉ S ++ [m])).length < (U.filter (fun x => x ∉ S)).length := by
  induction U with
  | nil => cases hU
  | cons p U ih =>
    simp only [List.filter_cons]
    by_cases hpq : p = m
    · subst hpq
      have hm := filter_mono (U := U) (S := S) (S' := S ++ [p]) (fun _ h => List.mem_append_left _ h)
      simp [hS]
      simp at hm
      omega
    · have hU' : m ∈ U := by
        rcases List.mem_cons.1 hU with h | h
        · exact absurd h.symm hpq
        · exact h
      have := ih hU'
      by_cases h1 : p ∈ S
      · simp [h1]; simpa using this
      · have h2 : ¬ (p ∈ S ++ [m]) := by simp [h1, hpq]
        simp only [h1, h2, not_false_eq_true, decide_true, if_true, List.length_cons]
        omega

theorem namesLoop_total {g : Graph} {r : Record} {k : Nat}
    {rec : Nat → List Nat → Option (List Str × List Nat)}
    (hrec : ∀ im S ns S', rec im S = some (ns, S') → NamesOK g im S ns S')
    (htot : ∀ im S, im < g.length → todoM g.length S < k → ∃ p, rec im S = some p) :
    ∀ (qs : List Request) (acc : List Str) (S : List Nat),
      (∀ q ∈ qs, ∀ im, r.imported q = some im → im < g.length) → todoM g.length S < k →
      ∃ p, namesLoop rec r qs acc S = some p := by
  intro qs
  induction qs with
  | nil => intro acc S _ _; exact ⟨_, rfl⟩
  | cons q qs ih =>
    intro acc S hq hS
    have hq' : ∀ q ∈ qs, ∀ im, r.imported q = some im → im < g.length :=
      fun q h => hq q (List.mem_cons_of_mem _ h)
    simp only [namesLoop]
    cases him : r.imported q with
    | none => exact ih acc S hq' hS
    | some im =>
      simp only
      obtain ⟨⟨ns1, S1⟩, hr⟩ := htot im S (hq q (List.mem_cons_self ..) im him) hS
      have hm := filter_mono (U := List.range g.length) (hrec im S ns1 S1 hr).mono
      rw [hr]
      exact ih _ S1 hq' (by unfold todoM at hS ⊢; omega)

theorem names_total {g : Graph} (hw : WellLinked g) : ∀ (fuel m : Nat) (S : List Nat), m < g.length →
    todoM g.length S < fuel → ∃ p, names g fuel m S = some p := by
  intro fuel
  induction fuel with
  | zero => intro m S _ h; omega
  | succ fuel ih =>
    intro m S hm hf
    simp only [names]
    by_cases hin : m ∈ S
    · rw [if_pos hin]; exact ⟨_, rfl⟩
    · rw [if_neg hin]
      have hlt := filter_lt (U := List.range g.length) (List.mem_range.2 hm) hin
      have hg : g[m]? = some g[m] := List.getElem?_eq_getElem hm
      rw [hg]
      simp only
      exact namesLoop_total (g := g) (fun im S ns S' h => names_ok fuel im S ns S' h)
        (fun im S h1 h2 => ih im S h1 h2) _ _ _
        (fun q _ im him => imported_lt hw hg him) (by unfold todoM at hf ⊢; omega)

end Verif.Modules
