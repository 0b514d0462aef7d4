import Verif.Types.Stored
/-!
# C100: an operation of the type store done again gives the same answer
-/

namespace Verif.Types
open Store
open Verif.Harness

variable {H : Hashes} {st st1 S : Store}

/-! ## Sorting in a later store -/

theorem insertBy_agree {α : Type} {f g : α → α → Ordering} {x : α} : ∀ {l : List α},
    (∀ y ∈ l, f x y = g x y) → insertBy f x l = insertBy g x l
  | [], _ => rfl
  | y :: l, h => by
    unfold insertBy
    rw [h y (List.mem_cons_self ..), insertBy_agree fun z hz => h z (List.mem_cons_of_mem _ hz)]

theorem sortBy_agree {α : Type} {f g : α → α → Ordering} : ∀ {l : List α},
    (∀ x ∈ l, ∀ y ∈ l, f x y = g x y) → sortBy f l = sortBy g l
  | [], _ => rfl
  | x :: l, h => by
    unfold sortBy
    rw [sortBy_agree (l := l) fun a ha b hb =>
      h a (List.mem_cons_of_mem _ ha) b (List.mem_cons_of_mem _ hb)]
    exact insertBy_agree fun y hy =>
      h x (List.mem_cons_self ..) y (List.mem_cons_of_mem _ ((sortBy_perm _).mem_iff.1 hy))

theorem sigCmp_mono (hle : Le st S) {r : Nat → Nat} (hc : Closed st r) {a b : Nat}
    (ha : (st.sigs.lookup a).isSome) (hb : (st.sigs.lookup b).isSome) :
    S.sigCmp a b = st.sigCmp a b := by
  unfold Store.sigCmp
  exact (cmpSig_congr hle ha hb fun x hx y hy =>
    (typeCmp_mono hle hc (sig_known hc ha x hx) (sig_known hc hb y hy)).symm).symm

theorem overloads_mono (hle : Le st S) (hi : Core H st) {l : List Nat} (hk : SigsKnown st l) :
    sortBy S.sigCmp (stableDedup l) = sortBy st.sigCmp (stableDedup l) := by
  obtain ⟨r, hc⟩ := hi.closed
  refine sortBy_agree fun x hx y hy => sigCmp_mono hle hc (hk x ?_) (hk y ?_)
  · exact mem_overloads.1 ((sortBy_perm (cmp := st.sigCmp) _).mem_iff.2 hx)
  · exact mem_overloads.1 ((sortBy_perm (cmp := st.sigCmp) _).mem_iff.2 hy)

/-! ## Merging in a later store -/

theorem mergeProps_again : ∀ (ps acc : List Property) (st : Store) (c : Bool) (st1 : Store)
    (out : List Property), Inv H st → (∀ p ∈ ps, PropKnown st p) → (∀ p ∈ acc, PropKnown st p) →
    mergeProps H st ps acc c = some (st1, out) → Le st1 S → Inv H S →
    mergeProps H S ps acc c = some (S, out)
  | [], acc, st, c, st1, out, _, _, _, h, _, _ => by
    simp only [mergeProps, Option.some.injEq, Prod.mk.injEq] at h ⊢
    exact ⟨trivial, h.2⟩
  | p :: ps, [], st, c, st1, out, hi, hp, ha, h, hle, hS => by
    unfold mergeProps at h ⊢
    refine mergeProps_again ps [p] st false st1 out hi (fun q hq => hp q (List.mem_cons_of_mem _ hq))
      ?_ h hle hS
    intro q hq
    rw [List.mem_singleton.1 hq]; exact hp p (List.mem_cons_self ..)
  | p :: ps, last :: acc, st, c, st1, out, hi, hp, ha, h, hle, hS => by
    unfold mergeProps at h ⊢
    have hpp := hp p (List.mem_cons_self ..)
    have hl := ha last (List.mem_cons_self ..)
    split at h
    · rename_i hkey
      rw [if_pos hkey]
      split at h
      · cases h
      · rename_i st2 ty he
        have hk : TypesKnown st [last.data.ty, p.data.ty] := by
          intro t ht
          rcases List.mem_cons.1 ht with rfl | ht
          · exact hl.1
          · rw [List.mem_singleton.1 ht]; exact hpp.1
        obtain ⟨h1, h2, h3⟩ := inter_ok hi hk he
        have hps : ∀ q ∈ ps, PropKnown st2 q := fun q hq => (hp q (List.mem_cons_of_mem _ hq)).mono h2
        have hacc : ∀ q ∈ (⟨last.key,
          { ty := ty
            optional := last.data.optional && p.data.optional
            readonly := last.data.readonly || p.data.readonly
            isMethod := last.data.isMethod || p.data.isMethod
            declaredOn := (mergeDeclared last.data.declaredOn p.data.declaredOn c).1
            origin := mergeOrigin last.data.origin p.data.origin
            accessibility := mergeAccess last.data.accessibility p.data.accessibility }⟩ : Property) ::
              acc, PropKnown st2 q := by
          intro q hq
          rcases List.mem_cons.1 hq with rfl | hq
          · exact ⟨h3, hl.2.mono h2⟩
          · exact (ha q (List.mem_cons_of_mem _ hq)).mono h2
        rw [inter_later hi hk he ((mergeProps_ok ps _ st2 _ st1 out h1 hps hacc h).2.1.trans hle) hS.core]
        exact mergeProps_again ps _ st2 _ st1 out h1 hps hacc h hle hS
    · rename_i hkey
      rw [if_neg hkey]
      refine mergeProps_again ps (p :: last :: acc) st false st1 out hi
        (fun q hq => hp q (List.mem_cons_of_mem _ hq)) ?_ h hle hS
      intro q hq
      rcases List.mem_cons.1 hq with rfl | hq
      · exact hpp
      · exact ha q hq

theorem mergeIndexers_again : ∀ (xs acc : List Indexer) (st : Store) (st1 : Store)
    (out : List Indexer), Inv H st → (∀ p ∈ xs, IndexerKnown st p) → (∀ p ∈ acc, IndexerKnown st p) →
    mergeIndexers H st xs acc = some (st1, out) → Le st1 S → Inv H S →
    mergeIndexers H S xs acc = some (S, out)
  | [], acc, st, st1, out, _, _, _, h, _, _ => by
    simp only [mergeIndexers, Option.some.injEq, Prod.mk.injEq] at h ⊢
    exact ⟨trivial, h.2⟩
  | p :: ps, [], st, st1, out, hi, hp, ha, h, hle, hS => by
    unfold mergeIndexers at h ⊢
    refine mergeIndexers_again ps [p] st st1 out hi (fun q hq => hp q (List.mem_cons_of_mem _ hq))
      ?_ h hle hS
    intro q hq
    rw [List.mem_singleton.1 hq]; exact hp p (List.mem_cons_self ..)
  | p :: ps, last :: acc, st, st1, out, hi, hp, ha, h, hle, hS => by
    unfold mergeIndexers at h ⊢
    have hpp := hp p (List.mem_cons_self ..)
    have hl := ha last (List.mem_cons_self ..)
    split at h
    · rename_i hkey
      rw [if_pos hkey]
      split at h
      · cases h
      · rename_i st2 ty he
        have hk : TypesKnown st [last.valueType, p.valueType] := by
          intro t ht
          rcases List.mem_cons.1 ht with rfl | ht
          · exact hl.2
          · rw [List.mem_singleton.1 ht]; exact hpp.2
        obtain ⟨h1, h2, h3⟩ := inter_ok hi hk he
        have hps : ∀ q ∈ ps, IndexerKnown st2 q :=
          fun q hq => (hp q (List.mem_cons_of_mem _ hq)).mono h2
        have hacc : ∀ q ∈ (⟨last.keyType, ty, last.readonly || p.readonly⟩ : Indexer) :: acc,
            IndexerKnown st2 q := by
          intro q hq
          rcases List.mem_cons.1 hq with rfl | hq
          · exact ⟨h2.known hl.1, h3⟩
          · exact (ha q (List.mem_cons_of_mem _ hq)).mono h2
        rw [inter_later hi hk he ((mergeIndexers_ok ps _ st2 st1 out h1 hps hacc h).2.1.trans hle)
          hS.core]
        exact mergeIndexers_again ps _ st2 st1 out h1 hps hacc h hle hS
    · rename_i hkey
      rw [if_neg hkey]
      refine mergeIndexers_again ps (p :: last :: acc) st st1 out hi
        (fun q hq => hp q (List.mem_cons_of_mem _ hq)) ?_ h hle hS
      intro q hq
      rcases List.mem_cons.1 hq with rfl | hq
      · exact hpp
      · exact ha q hq

theorem internShape_again {s : Shape} {i : Nat} (hi : Inv H st) (hk : ShapeKnown st s)
    (h : st.internShape H s = some (st1, i)) (hle : Le st1 S) (hS : Inv H S) :
    S.internShape H s = some (S, i) := by
  have hle0 : Le st S := (internShape_ok hi hk h).2.1.trans hle
  rw [internShape_eq hi.core hk] at h
  rw [internShape_eq hS.core (hk.mono hle0)]
  unfold shapeOf' at h ⊢
  obtain ⟨hprop, hidx⟩ := shape_parts hk
  have e1 : sortBy (fun a b => S.cmpKey a.key b.key) s.properties =
      sortBy (fun a b => st.cmpKey a.key b.key) s.properties :=
    sortBy_agree fun a ha b hb => (cmpKey_congr hle0 (hk.keys a ha) (hk.keys b hb)).symm
  split at h
  · cases h
  · rename_i st2 props h1
    simp only at h
    split at h
    · cases h
    · rename_i st3 idx h2
      split at h
      · cases h
      · rename_i m j h3
        simp only [Option.some.injEq, Prod.mk.injEq] at h
        obtain ⟨rfl, rfl⟩ := h
        have hp' : ∀ p ∈ sortBy (fun a b => st.cmpKey a.key b.key) s.properties, PropKnown st p :=
          fun p hp => hprop p ((sortBy_perm _).mem_iff.1 hp)
        obtain ⟨a1, a2, a3⟩ := mergeProps_ok _ _ _ _ _ _ hi hp' (fun p hp => absurd hp List.not_mem_nil) h1
        have hx' : ∀ p ∈ sortBy (cmpIndexer st2.typeCmp) s.indexers, IndexerKnown st2 p :=
          fun p hp => (hidx p ((sortBy_perm _).mem_iff.1 hp)).mono a2
        obtain ⟨b1, b2, b3⟩ := mergeIndexers_ok _ _ _ _ _ a1 hx'
          (fun p hp => absurd hp List.not_mem_nil) h2
        obtain ⟨c1, c2, c3, _⟩ := insert_spec b1.core.shapes h3
        have hle3 : Le st3 S := by
          refine Le.trans ?_ hle
          exact ⟨Ext.refl _, c1, Ext.refl _, Ext.refl _, Ext.refl _, rfl, Nat.le_refl _⟩
        have hle2 : Le st2 S := b2.trans hle3
        obtain ⟨r, hc⟩ := a1.core.closed
        have e2 : sortBy (cmpIndexer S.typeCmp) s.indexers = sortBy (cmpIndexer st2.typeCmp) s.indexers :=
          sortBy_agree fun a ha b hb => by
            unfold cmpIndexer
            rw [typeCmp_mono hle2 hc ((hidx a ha).mono a2).1 ((hidx b hb).mono a2).1,
              typeCmp_mono hle2 hc ((hidx a ha).mono a2).2 ((hidx b hb).mono a2).2]
        have k1 : SigsKnown st2 s.callSigs := fun t ht =>
          isSome_ext a2.sigs (hk.sigs t (List.mem_append_left _ ht))
        have k2 : SigsKnown st2 s.constructSigs := fun t ht =>
          isSome_ext a2.sigs (hk.sigs t (List.mem_append_right _ ht))
        rw [e1, mergeProps_again _ _ _ _ _ _ hi hp' (fun p hp => absurd hp List.not_mem_nil) h1 hle2 hS]
        simp only
        rw [e2, mergeIndexers_again _ _ _ _ _ a1 hx' (fun p hp => absurd hp List.not_mem_nil) h2 hle3 hS]
        simp only
        rw [overloads_mono hle2 a1.core k1, overloads_mono hle2 a1.core k2,
          insert_present hS.core.shapes (hle.shapes _ _ c3)]

theorem tidy_mono (hi : Core H st) (hle : Le st S) {k : Kind} (hk : KindKnown st k) :
    tidy S k = tidy st k := by
  cases k <;> try rfl
  case callable ss =>
    simp only [tidy]
    rw [overloads_mono hle hi (hk.sigs _ rfl)]

theorem internType_again {k : Kind} {i : Nat} (hi : Inv H st) (hk : KindKnown st k)
    (h : st.internType H k = some (st1, i)) (hle : Le st1 S) (hS : Inv H S) :
    S.internType H k = some (S, i) := by
  have hle0 : Le st S := (internType_ok hi hk h).le.trans hle
  by_cases hu : ∃ ms, k = .union ms
  · obtain ⟨ms, rfl⟩ := hu
    exact union_later hi hk.types h hle hS.core
  · by_cases hn : ∃ ms, k = .inter ms
    · obtain ⟨ms, rfl⟩ := hn
      exact inter_later hi hk.types h hle hS.core
    · rw [internType_eq hi.core hk (fun ms e => hu ⟨ms, e⟩) (fun ms e => hn ⟨ms, e⟩)] at h
      rw [internType_eq hS.core (hk.mono hle0) (fun ms e => hu ⟨ms, e⟩) (fun ms e => hn ⟨ms, e⟩),
        tidy_mono hi.core hle0 hk]
      refine insertType_later hS.core ?_
      unfold Store.insertType at h
      split at h
      · cases h
      · rename_i m j e
        cases h
        exact hle.types _ _ (insert_spec hi.core.types e).2.2.1

/-- Everything the store does can be done again. -/
theorem op_again {o : Op} {i : Nat} (hi : Inv H st) (hk : o.Known st)
    (h : o.run H st = some (st1, i)) (hle : Le st1 S) (hS : Inv H S) :
    o.run H S = some (S, i) := by
  have hle0 : Le st S := (op_ok hi hk h).2.trans hle
  cases o with
  | name s =>
    have hl := hle.names _ _ (internName_ok hi h).2.2
    have hb := hS.core.names.back _ _ hl
    show S.internName H s = _
    unfold Store.internName Names.intern
    rw [hb]
  | type k => exact internType_again hi hk h hle hS
  | signature s =>
    simp only [Op.run, Op.Known] at h hk ⊢
    rw [internSignature_eq hi.core hk] at h
    rw [internSignature_eq hS.core (hk.mono hle0)]
    obtain ⟨⟨m, j⟩, he, h⟩ := Option.map_eq_some_iff.1 h
    simp only [Prod.mk.injEq] at h
    obtain ⟨rfl, rfl⟩ := h
    rw [insert_present hS.core.sigs (hle.sigs _ _ (insert_spec hi.core.sigs he).2.2.1)]
    rfl
  | shape s => exact internShape_again hi hk h hle hS
  | object s =>
    simp only [Op.run] at h ⊢
    unfold Store.internObject at h ⊢
    split at h
    · cases h
    · rename_i m j e
      cases h
      rw [insert_present hS.core.objects (hle.objects _ _ (insert_spec hi.core.objects e).2.2.1)]
  | union ms => exact union_later hi hk h hle hS.core
  | inter ms => exact inter_later hi hk h hle hS.core
  | canon t =>
    simp only [Op.run, Op.Known] at h hk ⊢
    rw [canon_id hi.core hk] at h
    cases h
    exact canon_id hS.core (hle.known hk)

/-- **C100.** Whatever happens to the store in between, an operation done again with the same arguments
gives out the same identifier and leaves the store as it is. -/
theorem C100_again (hr : Reachable H st) (o : Op) (hk : o.Known st) (i : Nat)
    (h : o.run H st = some (st1, i)) (hl : Later H st1 S) : o.run H S = some (S, i) := by
  have hi := reachable_inv hr
  obtain ⟨hS, hle⟩ := later_le (op_ok hi hk h).1 hl
  exact op_again hi hk h hle hS

/-- A shape that lists a key twice, once as `boolean` and once as `number`: interning it builds an
intersection. It is done again after another type has been interned. -/
def twice : Shape := ⟨[prop 1 none, ⟨.number 1, ⟨12, false, false, none, false, none, none⟩⟩, prop 0 none],
  [], [], [⟨8, 12, false⟩, ⟨8, 14, true⟩]⟩

example : (Op.shape twice).Known w2 ∧ (Op.union [6, 8]).Known (after w2 (.shape twice)) := by
  refine ⟨⟨?_, ?_, ?_⟩, ?_⟩
  · show ∀ t ∈ shapeTypes twice, (w2.kind? t).isSome
    decide +kernel
  · intro t ht; exact absurd ht (by simp [shapeSigs, twice])
  · intro p hp
    simp only [twice, List.mem_cons, List.not_mem_nil, or_false] at hp
    rcases hp with rfl | rfl | rfl <;> trivial
  · show ∀ t ∈ [6, 8], ((after w2 (.shape twice)).kind? t).isSome
    decide +kernel

example : ((Op.shape twice).run hashes w2).map (fun x => (x.2, x.1.types.length - w2.types.length)) =
      some (0, 1) ∧
    ((Op.shape twice).run hashes (after (after w2 (.shape twice)) (.union [6, 8]))) =
      some (after (after w2 (.shape twice)) (.union [6, 8]), 0) := by
  decide +kernel

end Verif.Types
