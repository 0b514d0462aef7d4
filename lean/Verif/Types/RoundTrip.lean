import Verif.Types.Again
/-!
# C104: interning what an identifier stands for gives that identifier
-/

namespace Verif.Types
open Store
open Verif.Harness

variable {H : Hashes}

/-! ## Sorting what is sorted -/

theorem sortBy_id {α : Type} {cmp : α → α → Ordering} : ∀ {l : List α},
    l.Pairwise (fun a b => cmp a b ≠ .gt) → sortBy cmp l = l
  | [], _ => rfl
  | x :: l, h => by
    rw [List.pairwise_cons] at h
    unfold sortBy
    rw [sortBy_id h.2]
    cases l with
    | nil => rfl
    | cons y l =>
      unfold insertBy
      rw [if_neg (h.1 y (List.mem_cons_self ..))]

theorem dedupFrom_id : ∀ {l seen : List Nat}, l.Nodup → (∀ x ∈ l, x ∉ seen) → dedupFrom seen l = l
  | [], _, _, _ => rfl
  | x :: l, seen, hd, h => by
    rw [List.nodup_cons] at hd
    unfold dedupFrom
    rw [if_neg (by simpa using h x (List.mem_cons_self ..)), dedupFrom_id hd.2]
    intro y hy hs
    rcases List.mem_cons.1 hs with rfl | hs
    · exact hd.1 hy
    · exact h y (List.mem_cons_of_mem _ hy) hs

theorem overloads_again {st : Store} (l : List Nat) :
    sortBy st.sigCmp (stableDedup (sortBy st.sigCmp (stableDedup l))) =
      sortBy st.sigCmp (stableDedup l) := by
  have hd : (sortBy st.sigCmp (stableDedup l)).Nodup := (sortBy_perm _).nodup_iff.2 nodup_dedupFrom
  rw [show stableDedup (sortBy st.sigCmp (stableDedup l)) = sortBy st.sigCmp (stableDedup l) from
    dedupFrom_id hd fun x _ => List.not_mem_nil]
  exact sortBy_id (sortBy_sorted (tp_sigCmp st) _)

/-! ## What the operations add -/

/-- The signatures and shapes are the same, and no function type is new. -/
structure Grow (st st' : Store) : Prop where
  sigs : st'.sigs = st.sigs
  shapes : st'.shapes = st.shapes
  calls : ∀ t ss, st'.kind? t = some (.callable ss) → st.kind? t = some (.callable ss)

theorem Grow.refl (st : Store) : Grow st st := ⟨rfl, rfl, fun _ _ h => h⟩

theorem Grow.trans {a b c : Store} (h : Grow a b) (h' : Grow b c) : Grow a c :=
  ⟨h'.sigs.trans h.sigs, h'.shapes.trans h.shapes, fun t ss e => h.calls t ss (h'.calls t ss e)⟩

theorem insertType_new {st st' : Store} {k : Kind} {i : Nat} (hi : Core H st)
    (h : st.insertType H k = some (st', i)) : st'.sigs = st.sigs ∧ st'.shapes = st.shapes ∧
      ∀ t w, st'.kind? t = some w → st.kind? t = some w ∨ w = k := by
  unfold Store.insertType at h
  split at h
  · cases h
  · rename_i m j e
    cases h
    refine ⟨rfl, rfl, fun t w hw => ?_⟩
    rcases lookup_ins (insert_spec hi.types e).2.2.2 hw with hw | ⟨_, h⟩
    · exact .inl hw
    · exact .inr h

theorem insertType_grow {st st' : Store} {k : Kind} {i : Nat} (hi : Core H st)
    (hk : ∀ ss, k ≠ .callable ss) (h : st.insertType H k = some (st', i)) : Grow st st' := by
  obtain ⟨a, b, c⟩ := insertType_new hi h
  refine ⟨a, b, fun t ss e => ?_⟩
  rcases c t _ e with h | h
  · exact h
  · exact absurd h.symm (hk ss)

theorem union_grow {st st' : Store} {ms : List Nat} {i : Nat} (hi : Core H st) (hk : TypesKnown st ms)
    (h : st.union H ms = some (st', i)) : Grow st st' := by
  rw [union_eq hi hk] at h
  unfold unionOf unionFinish at h
  split at h
  · cases h; exact Grow.refl _
  · split at h
    · cases h; exact Grow.refl _
    · split at h
      · cases h; exact Grow.refl _
      · cases h; exact Grow.refl _
      · split at h
        · cases h; exact Grow.refl _
        · exact insertType_grow hi (by simp) h
      · exact insertType_grow hi (by simp) h

theorem inter_grow {st st' : Store} {ms : List Nat} {i : Nat} (hi : Core H st) (hk : TypesKnown st ms)
    (h : st.intersection H ms = some (st', i)) : Grow st st' := by
  rw [inter_eq hi hk] at h
  unfold interOf interFinish at h
  split at h
  · cases h; exact Grow.refl _
  · split at h
    · cases h; exact Grow.refl _
    · split at h
      · cases h; exact Grow.refl _
      · split at h
        · cases h; exact Grow.refl _
        · split at h
          · cases h; exact Grow.refl _
          · exact insertType_grow hi (by simp) h

theorem mergeProps_grow : ∀ (ps acc : List Property) (st : Store) (c : Bool) (st' : Store)
    (out : List Property), Inv H st → (∀ p ∈ ps, PropKnown st p) → (∀ p ∈ acc, PropKnown st p) →
    mergeProps H st ps acc c = some (st', out) → Grow st st'
  | [], acc, st, c, st', out, _, _, _, h => by
    simp only [mergeProps, Option.some.injEq, Prod.mk.injEq] at h
    rw [h.1]; exact Grow.refl _
  | p :: ps, [], st, c, st', out, hi, hp, ha, h => by
    unfold mergeProps at h
    refine mergeProps_grow ps [p] st false st' out hi (fun q hq => hp q (List.mem_cons_of_mem _ hq)) ?_ h
    intro q hq
    rw [List.mem_singleton.1 hq]; exact hp p (List.mem_cons_self ..)
  | p :: ps, last :: acc, st, c, st', out, hi, hp, ha, h => by
    unfold mergeProps at h
    have hpp := hp p (List.mem_cons_self ..)
    have hl := ha last (List.mem_cons_self ..)
    split at h
    · split at h
      · cases h
      · rename_i st1 ty he
        have hk : TypesKnown st [last.data.ty, p.data.ty] := by
          intro t ht
          rcases List.mem_cons.1 ht with rfl | ht
          · exact hl.1
          · rw [List.mem_singleton.1 ht]; exact hpp.1
        obtain ⟨h1, h2, h3⟩ := inter_ok hi hk he
        exact (inter_grow hi.core hk he).trans (mergeProps_grow ps _ st1 _ st' out h1
          (fun q hq => (hp q (List.mem_cons_of_mem _ hq)).mono h2) (by
            intro q hq
            rcases List.mem_cons.1 hq with rfl | hq
            · exact ⟨h3, hl.2.mono h2⟩
            · exact (ha q (List.mem_cons_of_mem _ hq)).mono h2) h)
    · refine mergeProps_grow ps (p :: last :: acc) st false st' out hi
        (fun q hq => hp q (List.mem_cons_of_mem _ hq)) ?_ h
      intro q hq
      rcases List.mem_cons.1 hq with rfl | hq
      · exact hpp
      · exact ha q hq

theorem mergeIndexers_grow : ∀ (xs acc : List Indexer) (st : Store) (st' : Store)
    (out : List Indexer), Inv H st → (∀ p ∈ xs, IndexerKnown st p) → (∀ p ∈ acc, IndexerKnown st p) →
    mergeIndexers H st xs acc = some (st', out) → Grow st st'
  | [], acc, st, st', out, _, _, _, h => by
    simp only [mergeIndexers, Option.some.injEq, Prod.mk.injEq] at h
    rw [h.1]; exact Grow.refl _
  | p :: ps, [], st, st', out, hi, hp, ha, h => by
    unfold mergeIndexers at h
    refine mergeIndexers_grow ps [p] st st' out hi (fun q hq => hp q (List.mem_cons_of_mem _ hq)) ?_ h
    intro q hq
    rw [List.mem_singleton.1 hq]; exact hp p (List.mem_cons_self ..)
  | p :: ps, last :: acc, st, st', out, hi, hp, ha, h => by
    unfold mergeIndexers at h
    have hpp := hp p (List.mem_cons_self ..)
    have hl := ha last (List.mem_cons_self ..)
    split at h
    · split at h
      · cases h
      · rename_i st1 ty he
        have hk : TypesKnown st [last.valueType, p.valueType] := by
          intro t ht
          rcases List.mem_cons.1 ht with rfl | ht
          · exact hl.2
          · rw [List.mem_singleton.1 ht]; exact hpp.2
        obtain ⟨h1, h2, h3⟩ := inter_ok hi hk he
        exact (inter_grow hi.core hk he).trans (mergeIndexers_grow ps _ st1 st' out h1
          (fun q hq => (hp q (List.mem_cons_of_mem _ hq)).mono h2) (by
            intro q hq
            rcases List.mem_cons.1 hq with rfl | hq
            · exact ⟨h2.known hl.1, h3⟩
            · exact (ha q (List.mem_cons_of_mem _ hq)).mono h2) h)
    · refine mergeIndexers_grow ps (p :: last :: acc) st st' out hi
        (fun q hq => hp q (List.mem_cons_of_mem _ hq)) ?_ h
      intro q hq
      rcases List.mem_cons.1 hq with rfl | hq
      · exact hpp
      · exact ha q hq

/-! ## The invariant -/

/-- Stored signatures have no names, stored function types and shapes are as interning leaves them. -/
structure Own (H : Hashes) (st : Store) : Prop where
  sigs : ∀ i s, st.sigs.lookup i = some s → unnamed s = s
  calls : ∀ t ss, st.kind? t = some (.callable ss) → sortBy st.sigCmp (stableDedup ss) = ss
  shapes : ∀ i s, st.shapes.lookup i = some s → st.internShape H s = some (st, i)

theorem unnamed_again (s : Signature) : unnamed (unnamed s) = unnamed s := by
  unfold unnamed
  simp

/-- Everything old stays as it is. -/
theorem own_step {st st' : Store} (hi : Inv H st) (hi' : Inv H st') (hle : Le st st') (ho : Own H st)
    (h1 : ∀ i s, st'.sigs.lookup i = some s → st.sigs.lookup i = some s ∨ unnamed s = s)
    (h2 : ∀ t ss, st'.kind? t = some (.callable ss) → st.kind? t = some (.callable ss) ∨
      sortBy st'.sigCmp (stableDedup ss) = ss)
    (h3 : ∀ i s, st'.shapes.lookup i = some s → st.shapes.lookup i = some s ∨
      st'.internShape H s = some (st', i)) : Own H st' := by
  obtain ⟨r, hc⟩ := hi.core.closed
  refine ⟨fun i s e => ?_, fun t ss e => ?_, fun i s e => ?_⟩
  · rcases h1 i s e with h | h
    · exact ho.sigs i s h
    · exact h
  · rcases h2 t ss e with h | h
    · rw [overloads_mono hle hi.core ((hc.types t _ h).1.sigs ss rfl)]
      exact ho.calls t ss h
    · exact h
  · rcases h3 i s e with h | h
    · exact internShape_again hi (hc.shapes i s h) (ho.shapes i s h) hle hi'
    · exact h

theorem own_grow {st st' : Store} (hi : Inv H st) (hi' : Inv H st') (hle : Le st st') (ho : Own H st)
    (h : Grow st st') : Own H st' :=
  own_step hi hi' hle ho (fun i s e => .inl (by rw [← h.sigs]; exact e)) (fun t ss e => .inl (h.calls t ss e))
    fun i s e => .inl (by rw [← h.shapes]; exact e)

theorem own_shape {st st' : Store} {s : Shape} {i : Nat} (hi : Inv H st) (hi' : Inv H st')
    (hle : Le st st') (ho : Own H st) (hk : ShapeKnown st s)
    (h : st.internShape H s = some (st', i)) : Own H st' := by
  have hr := internShape_eq hi.core hk
  rw [hr] at h
  unfold shapeOf' at h
  obtain ⟨hprop, hidx⟩ := shape_parts hk
  split at h
  · cases h
  · rename_i st1 props h1
    simp only at h
    split at h
    · cases h
    · rename_i st2 idx h2
      split at h
      · cases h
      · rename_i m j h3
        simp only [Option.some.injEq, Prod.mk.injEq] at h
        obtain ⟨rfl, rfl⟩ := h
        have hp' := fun p hp => hprop p ((sortBy_perm (cmp := fun a b => st.cmpKey a.key b.key) _).mem_iff.1 hp)
        obtain ⟨a1, a2, a3⟩ := mergeProps_ok _ _ _ _ _ _ hi hp' (fun p hp => absurd hp List.not_mem_nil) h1
        have e1 := mergeProps_grow _ _ _ _ _ _ hi hp' (fun p hp => absurd hp List.not_mem_nil) h1
        have hx' := fun p hp =>
          (hidx p ((sortBy_perm (cmp := cmpIndexer st1.typeCmp) _).mem_iff.1 hp)).mono a2
        obtain ⟨b1, b2, b3⟩ := mergeIndexers_ok _ _ _ _ _ a1 hx' (fun p hp => absurd hp List.not_mem_nil) h2
        have e2 := mergeIndexers_grow _ _ _ _ _ a1 hx' (fun p hp => absurd hp List.not_mem_nil) h2
        have e := e1.trans e2
        obtain ⟨_, _, hl, hor⟩ := insert_spec b1.core.shapes h3
        refine own_step hi hi' hle ho (fun i s e' => .inl (by rw [← e.sigs]; exact e'))
          (fun t ss e' => .inl (e.calls t ss e')) fun x w hw => ?_
        rcases lookup_ins hor hw with hw | ⟨rfl, rfl⟩
        · rw [e.shapes] at hw; exact .inl hw
        · right
          have hle2 : Le st2 { st2 with shapes := m } :=
            ⟨Ext.refl _, (insert_spec b1.core.shapes h3).1, Ext.refl _, Ext.refl _, Ext.refl _, rfl,
              Nat.le_refl _⟩
          have hle1 := b2.trans hle2
          obtain ⟨r', hc'⟩ := hi'.core.closed
          obtain ⟨r1, hc1⟩ := a1.core.closed
          have tp : TotalPreorder st.cmpKey := tp_key
          obtain ⟨c1, c2⟩ := mergeProps_keys tp _ _ _ _ _ _ (by
            intro p hp q hq e
            rw [List.nil_append, (sortBy_perm _).mem_iff] at hp hq
            exact (cmpKey_eq hi.core.names (hk.keys p hp) (hk.keys q hq)).1 e)
            (sortBy_sorted (tp_on tp Property.key) _) .nil (fun a ha => absurd ha List.not_mem_nil) h1
          have tp1 : TotalPreorder st1.typeCmp := tp_typeCmp st1
          obtain ⟨d1, d2⟩ := mergeIndexers_keys tp1 (fun a b e => (typeCmp_eq _ _ _).1 e) _ _ _ _ _ (by
            refine (sortBy_sorted (tp_indexer tp1) _).imp ?_
            intro a b e hab
            refine e ?_
            unfold cmpIndexer
            rw [hab]; rfl)
            .nil (fun a ha => absurd ha List.not_mem_nil) h2
          have np : (props.map Property.key).Nodup := by
            refine List.pairwise_map.2 (c1.imp ?_)
            intro a b e hab
            rw [hab, tp.refl] at e
            cases e
          have nx : (idx.map Indexer.keyType).Nodup := by
            refine List.pairwise_map.2 (d1.imp ?_)
            intro a b e hab
            rw [hab, tp1.refl] at e
            cases e
          have hks := hc'.shapes x _ hl
          rw [internShape_eq hi'.core hks]
          unfold shapeOf'
          have s1 : sortBy (fun a b => ({ st2 with shapes := m } : Store).cmpKey a.key b.key) props =
              props := by
            have kp : ∀ p ∈ props, KeyKnown st p.key := by
              intro p hp
              have := (c2 p.key).1 (List.mem_map.2 ⟨p, hp, rfl⟩)
              rw [List.nil_append, ((sortBy_perm _).map Property.key).mem_iff] at this
              obtain ⟨q, hq, e⟩ := List.mem_map.1 this
              rw [← e]; exact hk.keys q hq
            refine sortBy_id (c1.imp_of_mem fun {a b} ha hb e => ?_)
            rw [← cmpKey_congr hle (kp a ha) (kp b hb), e]
            simp
          have s2 : sortBy (cmpIndexer ({ st2 with shapes := m } : Store).typeCmp) idx = idx := by
            have kx : ∀ p ∈ idx, (st1.kind? p.keyType).isSome := by
              intro p hp
              have := (d2 p.keyType).1 (List.mem_map.2 ⟨p, hp, rfl⟩)
              rw [List.nil_append, ((sortBy_perm _).map Indexer.keyType).mem_iff] at this
              obtain ⟨q, hq, e⟩ := List.mem_map.1 this
              rw [← e]; exact ((hidx q hq).mono a2).1
            refine sortBy_id (d1.imp_of_mem fun {a b} ha hb e => ?_)
            unfold cmpIndexer
            rw [typeCmp_mono hle1 hc1 (kx a ha) (kx b hb), e]
            simp
          have s3 : ∀ l, SigsKnown st1 l →
              sortBy ({ st2 with shapes := m } : Store).sigCmp (stableDedup (sortBy st1.sigCmp (stableDedup l))) =
              sortBy st1.sigCmp (stableDedup l) := by
            intro l hl
            rw [← overloads_mono hle1 a1.core hl]
            exact overloads_again l
          simp only
          rw [s1, mergeProps_once _ [] _ false (by simpa using np)]
          simp only [List.reverse_nil, List.nil_append]
          rw [s2, mergeIndexers_once _ [] _ (by simpa using nx)]
          simp only [List.reverse_nil, List.nil_append]
          rw [s3 _ fun t ht => isSome_ext a2.sigs (hk.sigs t (List.mem_append_left _ ht)),
            s3 _ fun t ht => isSome_ext a2.sigs (hk.sigs t (List.mem_append_right _ ht)),
            insert_present hi'.core.shapes hl]

theorem insertAll_new : ∀ (ks : List Kind) (st st' : Store) (is : List Nat),
    insertAll H st ks = some (st', is) → MapOk H.type st.types →
    st'.sigs = st.sigs ∧ ∀ t w, st'.kind? t = some w → st.kind? t = some w ∨ w ∈ ks
  | [], st, st', is, h, _ => by
    simp only [insertAll, Option.some.injEq, Prod.mk.injEq] at h
    rw [h.1]; exact ⟨rfl, fun _ _ h => .inl h⟩
  | k :: ks, st, st', is, h, hm => by
    unfold insertAll at h
    split at h
    · cases h
    · rename_i st1 i e
      split at h
      · cases h
      · rename_i st2 js e2
        simp only [Option.some.injEq, Prod.mk.injEq] at h
        unfold Store.insertType at e
        split at e
        · cases e
        · rename_i m j em
          cases e
          obtain ⟨_, c2, _, c4⟩ := insert_spec hm em
          obtain ⟨a, b⟩ := insertAll_new ks _ _ _ e2 c2
          rw [← h.1]
          refine ⟨a, fun t w hw => ?_⟩
          rcases b t w hw with hw | hw
          · rcases lookup_ins c4 hw with hw | ⟨_, rfl⟩
            · exact .inl hw
            · exact .inr (List.mem_cons_self ..)
          · exact .inr (List.mem_cons_of_mem _ hw)

theorem reachable_own {st : Store} (h : Reachable H st) : Own H st := by
  induction h with
  | @new st h =>
    unfold Store.new at h
    split at h
    · rename_i he
      simp only [Option.some.injEq] at h
      subst h
      have e1 := insertAll_shapes _ _ _ _ he
      obtain ⟨e2, e3⟩ := insertAll_new _ _ _ _ he ⟨by simp, fun _ _ h => (by cases h)⟩
      refine ⟨fun i s hs => ?_, fun t ss hs => ?_, fun i s hs => ?_⟩
      · rw [show _ = _ from e2] at hs; cases hs
      · rcases e3 t _ hs with h | h
        · cases h
        · simp at h
      · rw [show _ = _ from e1] at hs; cases hs
    · cases h
  | @op st st' o i hr hk h ih =>
    have hi := reachable_inv hr
    obtain ⟨hi', hle⟩ := op_ok hi hk h
    cases o with
    | name s =>
      refine own_grow hi hi' hle ih ?_
      change st.internName H s = _ at h
      unfold Store.internName at h
      split at h
      · cases h
      · cases h; exact ⟨rfl, rfl, fun _ _ h => h⟩
    | type k =>
      by_cases hu : ∃ ms, k = .union ms
      · obtain ⟨ms, rfl⟩ := hu
        exact own_grow hi hi' hle ih (union_grow hi.core hk.types h)
      · by_cases hn : ∃ ms, k = .inter ms
        · obtain ⟨ms, rfl⟩ := hn
          exact own_grow hi hi' hle ih (inter_grow hi.core hk.types h)
        · change st.internType H k = _ at h
          rw [internType_eq hi.core hk (fun ms e => hu ⟨ms, e⟩) (fun ms e => hn ⟨ms, e⟩)] at h
          obtain ⟨a, b, c⟩ := insertType_new hi.core h
          refine own_step hi hi' hle ih (fun i s e => .inl (by rw [← a]; exact e)) (fun t ss e => ?_)
            fun i s e => .inl (by rw [← b]; exact e)
          rcases c t _ e with e | e
          · exact .inl e
          · right
            cases k <;> simp only [tidy, Kind.callable.injEq, reduceCtorEq] at e
            subst e
            rw [← overloads_mono hle hi.core (hk.sigs _ rfl)]
            exact overloads_again _
    | signature s =>
      change st.internSignature H s = _ at h
      rw [internSignature_eq hi.core hk] at h
      obtain ⟨⟨m, j⟩, he, h⟩ := Option.map_eq_some_iff.1 h
      simp only [Prod.mk.injEq] at h
      obtain ⟨rfl, rfl⟩ := h
      refine own_step hi hi' hle ih (fun i w e => ?_) (fun t ss e => .inl e) fun i s e => .inl e
      rcases lookup_ins (insert_spec hi.core.sigs he).2.2.2 e with e | ⟨_, rfl⟩
      · exact .inl e
      · exact .inr (unnamed_again s)
    | shape s => exact own_shape hi hi' hle ih hk h
    | object sh =>
      refine own_grow hi hi' hle ih ?_
      change st.internObject H sh = _ at h
      unfold Store.internObject at h
      split at h
      · cases h
      · cases h; exact ⟨rfl, rfl, fun _ _ h => h⟩
    | union ms => exact own_grow hi hi' hle ih (union_grow hi.core hk h)
    | inter ms => exact own_grow hi hi' hle ih (inter_grow hi.core hk h)
    | canon t =>
      change st.canon H t = _ at h
      rw [canon_id hi.core hk] at h
      cases h; exact ih

/-! ## The claim -/

variable {st : Store}

/-- **C104.** Interning the kind of a type gives that type, and nothing is added. -/
theorem C104_type (h : Reachable H st) (t : Nat) (k : Kind) (hk : st.kind? t = some k) :
    st.internType H k = some (st, t) := by
  have hi := reachable_inv h
  obtain ⟨r, hc⟩ := hi.core.closed
  have kn := (hc.types t k hk).1
  by_cases hu : ∃ ms, k = .union ms
  · obtain ⟨ms, rfl⟩ := hu
    show st.union H ms = _
    rw [union_eq (ms := ms) hi.core kn.types, unionOf_canon (hi.core.unions t ms hk), insertType_present hi.core hk]
  · by_cases hn : ∃ ms, k = .inter ms
    · obtain ⟨ms, rfl⟩ := hn
      show st.intersection H ms = _
      rw [inter_eq (ms := ms) hi.core kn.types, interOf_canon (hi.core.inters t ms hk), insertType_present hi.core hk]
    · rw [internType_eq hi.core kn (fun ms e => hu ⟨ms, e⟩) (fun ms e => hn ⟨ms, e⟩)]
      have e : tidy st k = k := by
        cases k <;> try rfl
        case callable ss =>
          simp only [tidy]
          rw [(reachable_own h).calls t ss hk]
      rw [e, insertType_present hi.core hk]

/-- **C104.** The same for signatures. -/
theorem C104_signature (h : Reachable H st) (i : Nat) (s : Signature) (hs : st.sigs.lookup i = some s) :
    st.internSignature H s = some (st, i) := by
  have hi := reachable_inv h
  obtain ⟨r, hc⟩ := hi.core.closed
  rw [internSignature_eq hi.core (hc.sigs i s hs), (reachable_own h).sigs i s hs,
    insert_present hi.core.sigs hs]
  rfl

/-- **C104.** The same for shapes. -/
theorem C104_shape (h : Reachable H st) (i : Nat) (s : Shape) (hs : st.shapes.lookup i = some s) :
    st.internShape H s = some (st, i) := (reachable_own h).shapes i s hs

/-- **C104.** The same for objects. -/
theorem C104_object (h : Reachable H st) (i s : Nat) (hs : st.objects.lookup i = some s) :
    st.internObject H s = some (st, i) := by
  have hi := reachable_inv h
  unfold Store.internObject
  rw [insert_present hi.core.objects hs]

/-- **C104.** The same for names. -/
theorem C104_name (h : Reachable H st) (i : Nat) (s : List Nat) (hs : st.names.byId.lookup i = some s) :
    st.internName H s = some (st, i) := by
  have hi := reachable_inv h
  unfold Store.internName Names.intern
  rw [hi.core.names.back _ _ hs]

/-- The shape that lists a key twice has been interned: it is stored in another form, and that form is
interned as it is. -/
example : Reachable hashes (after w2 (.shape twice)) ∧
    (after w2 (.shape twice)).shapes.lookup 0 ≠ some twice ∧
    ((after w2 (.shape twice)).shapes.lookup 0).isSome := by
  refine ⟨reach_after reach_w2 ⟨?_, ?_, ?_⟩, by decide +kernel, by decide +kernel⟩
  · show ∀ t ∈ shapeTypes twice, (w2.kind? t).isSome
    decide +kernel
  · intro t ht; exact absurd ht (by simp [shapeSigs, twice])
  · intro p hp
    simp only [twice, List.mem_cons, List.not_mem_nil, or_false] at hp
    rcases hp with rfl | rfl | rfl <;> trivial

end Verif.Types
