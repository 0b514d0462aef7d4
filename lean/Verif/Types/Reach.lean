import Verif.Types.Build
/-!
# Stores that can be built satisfy the invariant
-/

namespace Verif.Types
open Store
open Verif.Harness

/-! ## Signatures -/

/-- A signature without the names of its parameters. -/
def unnamed (s : Signature) : Signature :=
  { s with params := s.params.map fun p => { p with name := none } }

theorem zip_param : ∀ (ps : List Param),
    List.zipWith (fun (p : Param) t => { p with name := none, ty := t }) ps (ps.map Param.ty) =
      ps.map fun p => { p with name := none }
  | [] => rfl
  | p :: ps => by rw [List.map_cons, List.zipWith_cons_cons, zip_param ps, List.map_cons]

theorem setTypeParams_id : ∀ (ps : List TypeParamDecl),
    setTypeParams ps (ps.flatMap fun p => opt p.constraint ++ opt p.default_) = ps
  | [] => rfl
  | p :: ps => by
    rw [List.flatMap_cons, List.append_assoc]
    unfold setTypeParams
    simp only [setOpt_opt, setTypeParams_id ps]

theorem setSigArgs_id (s : Signature) : setSigArgs s (sigArgs s) = unnamed s := by
  unfold setSigArgs sigArgs unnamed
  have hd : ∀ (xs : List Nat), (s.params.map Param.ty ++ xs).drop s.params.length = xs := by
    intro xs
    exact List.drop_left' (by simp)
  have ht : ∀ (xs : List Nat), (s.params.map Param.ty ++ xs).take s.params.length =
      s.params.map Param.ty := by
    intro xs
    exact List.take_left' (by simp)
  simp only [List.append_assoc, List.cons_append, hd, ht, zip_param, List.headD_cons, List.tail_cons,
    setOpt_opt, setTypeParams_id]

theorem sigTypes_unnamed (s : Signature) : sigTypes (unnamed s) = sigTypes s := by
  unfold sigTypes unnamed
  simp only [List.map_map]
  rfl

theorem sigArgs_sub {s : Signature} {t : Nat} (h : t ∈ sigArgs s) : t ∈ sigTypes s := by
  unfold sigArgs at h
  unfold sigTypes
  simp only [List.mem_append, List.mem_cons, opt, List.mem_flatMap,
    List.not_mem_nil, or_false] at h ⊢
  grind

theorem internSignature_eq {H : Hashes} {st : Store} {s : Signature} (hi : Core H st)
    (hk : TypesKnown st (sigTypes s)) :
    st.internSignature H s = (insertWithCollision H.sig st.sigs (unnamed s)).map
      fun p => ({ st with sigs := p.1 }, p.2) := by
  unfold Store.internSignature
  rw [canonList_id hi fun t ht => hk t (sigArgs_sub ht)]
  simp only [setSigArgs_id]
  cases insertWithCollision H.sig st.sigs (unnamed s) <;> rfl

theorem internSignature_ok {H : Hashes} {st st' : Store} {s : Signature} {i : Nat} (hi : Inv H st)
    (hk : TypesKnown st (sigTypes s)) (h : st.internSignature H s = some (st', i)) :
    Inv H st' ∧ Le st st' ∧ st'.sigs.lookup i = some (unnamed s) := by
  rw [internSignature_eq hi.core hk] at h
  obtain ⟨⟨m, j⟩, he, h⟩ := Option.map_eq_some_iff.1 h
  simp only [Prod.mk.injEq] at h
  obtain ⟨rfl, rfl⟩ := h
  exact insertSig_ok hi (by rw [sigTypes_unnamed]; exact hk) he

/-! ## Shapes -/

/-- A property whose type and key are in the store. -/
def PropKnown (st : Store) (p : Property) : Prop := (st.kind? p.data.ty).isSome ∧ KeyKnown st p.key

def IndexerKnown (st : Store) (x : Indexer) : Prop :=
  (st.kind? x.keyType).isSome ∧ (st.kind? x.valueType).isSome

theorem PropKnown.mono {st st' : Store} {p : Property} (h : PropKnown st p) (hle : Le st st') :
    PropKnown st' p := ⟨hle.known h.1, h.2.mono hle⟩

theorem IndexerKnown.mono {st st' : Store} {p : Indexer} (h : IndexerKnown st p) (hle : Le st st') :
    IndexerKnown st' p := ⟨hle.known h.1, hle.known h.2⟩

theorem mergeProps_ok {H : Hashes} : ∀ (ps acc : List Property) (st : Store) (c : Bool) (st' : Store)
    (out : List Property), Inv H st → (∀ p ∈ ps, PropKnown st p) → (∀ p ∈ acc, PropKnown st p) →
    mergeProps H st ps acc c = some (st', out) →
    Inv H st' ∧ Le st st' ∧ ∀ p ∈ out, PropKnown st' p
  | [], acc, st, c, st', out, hi, _, ha, h => by
    simp only [mergeProps, Option.some.injEq, Prod.mk.injEq] at h
    obtain ⟨rfl, rfl⟩ := h
    exact ⟨hi, Le.refl _, fun p hp => ha p (List.mem_reverse.1 hp)⟩
  | p :: ps, [], st, c, st', out, hi, hp, ha, h => by
    unfold mergeProps at h
    refine mergeProps_ok ps [p] st false st' out hi (fun q hq => hp q (List.mem_cons_of_mem _ hq)) ?_ h
    intro q hq
    rw [List.mem_singleton.1 hq]; exact hp p (List.mem_cons_self ..)
  | p :: ps, last :: acc, st, c, st', out, hi, hp, ha, h => by
    unfold mergeProps at h
    have hpp := hp p (List.mem_cons_self ..)
    have hl := ha last (List.mem_cons_self ..)
    split at h
    · split at h
      · cases h
      · rename_i st1 ty he
        have hk : TypesKnown st [last.data.ty, p.data.ty] := by
          intro t ht
          rcases List.mem_cons.1 ht with rfl | ht
          · exact hl.1
          · rw [List.mem_singleton.1 ht]; exact hpp.1
        obtain ⟨h1, h2, h3⟩ := inter_ok hi hk he
        obtain ⟨g1, g2, g3⟩ := mergeProps_ok ps _ st1 _ st' out h1
          (fun q hq => (hp q (List.mem_cons_of_mem _ hq)).mono h2) (by
            intro q hq
            rcases List.mem_cons.1 hq with rfl | hq
            · exact ⟨h3, hl.2.mono h2⟩
            · exact (ha q (List.mem_cons_of_mem _ hq)).mono h2) h
        exact ⟨g1, h2.trans g2, g3⟩
    · refine mergeProps_ok ps (p :: last :: acc) st false st' out hi
        (fun q hq => hp q (List.mem_cons_of_mem _ hq)) ?_ h
      intro q hq
      rcases List.mem_cons.1 hq with rfl | hq
      · exact hpp
      · exact ha q hq

theorem mergeIndexers_ok {H : Hashes} : ∀ (xs acc : List Indexer) (st : Store) (st' : Store)
    (out : List Indexer), Inv H st → (∀ p ∈ xs, IndexerKnown st p) → (∀ p ∈ acc, IndexerKnown st p) →
    mergeIndexers H st xs acc = some (st', out) →
    Inv H st' ∧ Le st st' ∧ ∀ p ∈ out, IndexerKnown st' p
  | [], acc, st, st', out, hi, _, ha, h => by
    simp only [mergeIndexers, Option.some.injEq, Prod.mk.injEq] at h
    obtain ⟨rfl, rfl⟩ := h
    exact ⟨hi, Le.refl _, fun p hp => ha p (List.mem_reverse.1 hp)⟩
  | p :: ps, [], st, st', out, hi, hp, ha, h => by
    unfold mergeIndexers at h
    refine mergeIndexers_ok ps [p] st st' out hi (fun q hq => hp q (List.mem_cons_of_mem _ hq)) ?_ h
    intro q hq
    rw [List.mem_singleton.1 hq]; exact hp p (List.mem_cons_self ..)
  | p :: ps, last :: acc, st, st', out, hi, hp, ha, h => by
    unfold mergeIndexers at h
    have hpp := hp p (List.mem_cons_self ..)
    have hl := ha last (List.mem_cons_self ..)
    split at h
    · split at h
      · cases h
      · rename_i st1 ty he
        have hk : TypesKnown st [last.valueType, p.valueType] := by
          intro t ht
          rcases List.mem_cons.1 ht with rfl | ht
          · exact hl.2
          · rw [List.mem_singleton.1 ht]; exact hpp.2
        obtain ⟨h1, h2, h3⟩ := inter_ok hi hk he
        obtain ⟨g1, g2, g3⟩ := mergeIndexers_ok ps _ st1 st' out h1
          (fun q hq => (hp q (List.mem_cons_of_mem _ hq)).mono h2) (by
            intro q hq
            rcases List.mem_cons.1 hq with rfl | hq
            · exact ⟨h2.known hl.1, h3⟩
            · exact (ha q (List.mem_cons_of_mem _ hq)).mono h2) h
        exact ⟨g1, h2.trans g2, g3⟩
    · refine mergeIndexers_ok ps (p :: last :: acc) st st' out hi
        (fun q hq => hp q (List.mem_cons_of_mem _ hq)) ?_ h
      intro q hq
      rcases List.mem_cons.1 hq with rfl | hq
      · exact hpp
      · exact ha q hq

theorem zip_props : ∀ (ps : List Property),
    List.zipWith (fun p t => (⟨p.key, { p.data with ty := t }⟩ : Property)) ps
      (ps.map fun p => p.data.ty) = ps
  | [] => rfl
  | p :: ps => by rw [List.map_cons, List.zipWith_cons_cons, zip_props ps]

theorem setIndexers_id : ∀ (xs : List Indexer),
    setIndexers xs (xs.flatMap fun x => [x.keyType, x.valueType]) = xs
  | [] => rfl
  | x :: xs => by
    rw [List.flatMap_cons]
    show setIndexers (x :: xs) (x.keyType :: x.valueType :: _) = _
    unfold setIndexers
    show _ :: setIndexers xs (xs.flatMap fun x => [x.keyType, x.valueType]) = _
    rw [setIndexers_id xs]

/-- `intern_shape` without `canon`. -/
def shapeOf' (H : Hashes) (st : Store) (s : Shape) : Option (Store × Nat) :=
  match mergeProps H st (sortBy (fun a b => st.cmpKey a.key b.key) s.properties) [] false with
  | none => none
  | some (st, props) =>
    let call := sortBy st.sigCmp (stableDedup s.callSigs)
    let construct := sortBy st.sigCmp (stableDedup s.constructSigs)
    match mergeIndexers H st (sortBy (cmpIndexer st.typeCmp) s.indexers) [] with
    | none => none
    | some (st, indexers) =>
      match insertWithCollision H.shape st.shapes ⟨props, call, construct, indexers⟩ with
      | none => none
      | some (m, i) => some ({ st with shapes := m }, i)

theorem internShape_eq {H : Hashes} {st : Store} {s : Shape} (hi : Core H st) (hk : ShapeKnown st s) :
    st.internShape H s = shapeOf' H st s := by
  unfold Store.internShape shapeOf'
  rw [canonList_id hi (ts := shapeArgs s) hk.types]
  have h1 : (shapeArgs s).take s.properties.length = s.properties.map fun p => p.data.ty := by
    unfold shapeArgs
    exact List.take_left' (by simp)
  have h2 : (shapeArgs s).drop s.properties.length =
      s.indexers.flatMap fun x => [x.keyType, x.valueType] := by
    unfold shapeArgs
    exact List.drop_left' (by simp)
  simp only [h1, h2, zip_props, setIndexers_id]
  rfl

theorem internShape_ok {H : Hashes} {st st' : Store} {s : Shape} {i : Nat} (hi : Inv H st)
    (hk : ShapeKnown st s) (h : st.internShape H s = some (st', i)) :
    Inv H st' ∧ Le st st' ∧ (st'.shapes.lookup i).isSome := by
  rw [internShape_eq hi.core hk] at h
  unfold shapeOf' at h
  have hprop : ∀ p ∈ s.properties, PropKnown st p := fun p hp =>
    ⟨hk.types _ (List.mem_append_left _ (List.mem_map.2 ⟨p, hp, rfl⟩)), hk.keys p hp⟩
  have hidx : ∀ x ∈ s.indexers, IndexerKnown st x := fun x hx =>
    ⟨hk.types _ (List.mem_append_right _ (List.mem_flatMap.2 ⟨x, hx, by simp⟩)),
      hk.types _ (List.mem_append_right _ (List.mem_flatMap.2 ⟨x, hx, by simp⟩))⟩
  split at h
  · cases h
  · rename_i st1 props h1
    simp only at h
    split at h
    · cases h
    · rename_i st2 idx h2
      split at h
      · cases h
      · rename_i m j h3
        simp only [Option.some.injEq, Prod.mk.injEq] at h
        obtain ⟨rfl, rfl⟩ := h
        obtain ⟨a1, a2, a3⟩ := mergeProps_ok _ _ _ _ _ _ hi
          (fun p hp => hprop p ((sortBy_perm _).mem_iff.1 hp)) (fun p hp => absurd hp List.not_mem_nil) h1
        obtain ⟨b1, b2, b3⟩ := mergeIndexers_ok _ _ _ _ _ a1
          (fun p hp => (hidx p ((sortBy_perm _).mem_iff.1 hp)).mono a2)
          (fun p hp => absurd hp List.not_mem_nil) h2
        have hks : ShapeKnown st2 ⟨props, sortBy st1.sigCmp (stableDedup s.callSigs),
            sortBy st1.sigCmp (stableDedup s.constructSigs), idx⟩ := by
          refine ⟨?_, ?_, fun p hp => (a3 p hp).2.mono b2⟩
          · intro t ht
            rcases List.mem_append.1 ht with ht | ht
            · obtain ⟨p, hp, rfl⟩ := List.mem_map.1 ht
              exact b2.known (a3 p hp).1
            · obtain ⟨x, hx, ht⟩ := List.mem_flatMap.1 ht
              rcases List.mem_cons.1 ht with rfl | ht
              · exact (b3 x hx).1
              · rw [List.mem_singleton.1 ht]; exact (b3 x hx).2
          · intro t ht
            refine isSome_ext (a2.trans b2).sigs (hk.sigs t ?_)
            rcases List.mem_append.1 ht with ht | ht
            · exact List.mem_append_left _ (mem_overloads.1 ht)
            · exact List.mem_append_right _ (mem_overloads.1 ht)
        obtain ⟨c1, c2, c3⟩ := insertShape_ok b1 hks h3
        exact ⟨c1, a2.trans (b2.trans c2), by show (m.lookup j).isSome; rw [c3]; rfl⟩

/-! ## Everything else -/

theorem core_empty (H : Hashes) (p : Primitives) : Core H ⟨[], [], [], [], ⟨[], []⟩, p⟩ := by
  refine ⟨mapOk_nil, mapOk_nil, mapOk_nil, mapOk_nil, namesOk_nil, ⟨fun _ => 0, ?_⟩, ?_, ?_⟩
  · constructor <;> intro _ _ h <;> cases h
  · intro _ _ h; cases h
  · intro _ _ h; cases h

/-- A kind with nothing inside. -/
def Atom (k : Kind) : Prop :=
  kindTypes k = [] ∧ (∀ o, k ≠ .object o) ∧ (∀ ss, k ≠ .callable ss) ∧ (∀ n, k ≠ .strLit n) ∧
    (∀ ms, k ≠ .union ms) ∧ ∀ ms, k ≠ .inter ms

theorem Atom.known {st : Store} {k : Kind} (h : Atom k) : KindKnown st k :=
  ⟨fun t ht => (by rw [h.1] at ht; cases ht), fun o e => absurd e (h.2.1 o),
    fun o e => absurd e (h.2.2.1 o), fun o e => absurd e (h.2.2.2.1 o)⟩

theorem insertAll_spec {H : Hashes} : ∀ (ks : List Kind) (st st' : Store) (is : List Nat), Core H st →
    (∀ k ∈ ks, Atom k) → insertAll H st ks = some (st', is) →
    Core H st' ∧ Le st st' ∧ is.map st'.kind? = ks.map some
  | [], st, st', is, hi, _, h => by
    simp only [insertAll, Option.some.injEq, Prod.mk.injEq] at h
    obtain ⟨rfl, rfl⟩ := h
    exact ⟨hi, Le.refl _, rfl⟩
  | k :: ks, st, st', is, hi, ha, h => by
    unfold insertAll at h
    split at h
    · cases h
    · rename_i st1 i h1
      split at h
      · cases h
      · rename_i st2 js h2
        simp only [Option.some.injEq, Prod.mk.injEq] at h
        obtain ⟨rfl, rfl⟩ := h
        have hk := ha k (List.mem_cons_self ..)
        obtain ⟨a1, a2, a3⟩ := insertType_spec hi hk.known (fun ms e => absurd e (hk.2.2.2.2.1 ms))
          (fun ms e => absurd e (hk.2.2.2.2.2 ms)) h1
        obtain ⟨b1, b2, b3⟩ := insertAll_spec ks _ _ _ a1 (fun k hk => ha k (List.mem_cons_of_mem _ hk)) h2
        exact ⟨b1, a2.trans b2, by rw [List.map_cons, List.map_cons, b3, b2.kind? a3]⟩

theorem Core.prims {H : Hashes} {st : Store} (h : Core H st) (p : Primitives) :
    Core H { st with prims := p } := by
  obtain ⟨r, hc⟩ := h.closed
  have hT : ∀ a b, ({ st with prims := p } : Store).typeCmp a b = st.typeCmp a b := by
    intro a b
    have : ∀ (n a b : Nat), ({ st with prims := p } : Store).typeCmpN n a b = st.typeCmpN n a b := by
      intro n
      induction n with
      | zero => intros; rfl
      | succ n ih =>
        intro a b
        show typeCmpWith _ _ _ _ = typeCmpWith _ _ _ _
        have : ({ st with prims := p } : Store).typeCmpN n = st.typeCmpN n := by
          funext a b; exact ih a b
        rw [this]
        rfl
    exact this _ a b
  refine ⟨h.types, h.shapes, h.objects, h.sigs, h.names, ⟨r, ⟨?_, hc.sigs, ?_, hc.objects,
    hc.rank, hc.rankObj, hc.rankCall⟩⟩, ?_, ?_⟩
  · intro t k hk
    obtain ⟨a, b⟩ := hc.types t k hk
    exact ⟨⟨a.types, a.object, a.sigs, a.name⟩, b⟩
  · intro i s hs
    have a := hc.shapes i s hs
    exact ⟨a.types, a.sigs, fun p hp => by
      have := a.keys p hp
      cases hk : p.key <;> rw [hk] at this <;> exact this⟩
  · intro t ms ht
    have a := h.unions t ms ht
    exact ⟨a.two, a.sorted.imp fun {x y} e => by rw [hT]; exact e, a.known, a.plain, a.keeps, a.notBool⟩
  · intro t ms ht
    have a := h.inters t ms ht
    exact ⟨a.two, a.sorted.imp fun {x y} e => by rw [hT]; exact e, a.known, a.plain, a.keeps, a.scan⟩

theorem new_inv {H : Hashes} {st : Store} (h : Store.new H = some st) : Inv H st := by
  unfold Store.new at h
  split at h
  · rename_i st1 a u n x1 x2 x3 b x4 x5 x6 x7 x8 he
    simp only [Option.some.injEq] at h
    subst h
    obtain ⟨h1, h2, h3⟩ := insertAll_spec _ _ _ _ (core_empty H _) (by
      intro k hk
      simp only [List.mem_cons, List.not_mem_nil, or_false] at hk
      rcases hk with rfl | rfl | rfl | rfl | rfl | rfl | rfl | rfl | rfl | rfl | rfl | rfl <;>
        exact ⟨rfl, by simp, by simp, by simp, by simp, by simp⟩) he
    simp only [List.map_cons, List.map_nil, List.cons.injEq] at h3
    exact ⟨h1.prims _, ⟨h3.1, h3.2.1, h3.2.2.1, h3.2.2.2.2.2.2.1, h3.2.2.2.2.2.2.2.1,
      h3.2.2.2.2.2.2.2.2.1, h3.2.2.2.2.2.2.2.2.2.1⟩⟩
  · cases h

theorem canon_ok {H : Hashes} {st st' : Store} {t i : Nat} (hi : Inv H st) (hk : (st.kind? t).isSome)
    (h : st.canon H t = some (st', i)) : Ok H st st' i := by
  rw [canon_id hi.core hk] at h
  simp only [Option.some.injEq, Prod.mk.injEq] at h
  obtain ⟨rfl, rfl⟩ := h
  exact .same hi hk

theorem op_ok {H : Hashes} {st st' : Store} {o : Op} {i : Nat} (hi : Inv H st) (hk : o.Known st)
    (h : o.run H st = some (st', i)) : Inv H st' ∧ Le st st' := by
  cases o with
  | name s => exact ⟨(internName_ok hi h).1, (internName_ok hi h).2.1⟩
  | type k => exact ⟨(internType_ok hi hk h).inv, (internType_ok hi hk h).le⟩
  | signature s => exact ⟨(internSignature_ok hi hk h).1, (internSignature_ok hi hk h).2.1⟩
  | shape s => exact ⟨(internShape_ok hi hk h).1, (internShape_ok hi hk h).2.1⟩
  | object sh =>
    change st.internObject H sh = _ at h
    unfold Store.internObject at h
    split at h
    · cases h
    · rename_i m j he
      simp only [Option.some.injEq, Prod.mk.injEq] at h
      obtain ⟨rfl, rfl⟩ := h
      exact ⟨(insertObject_ok hi hk he).1, (insertObject_ok hi hk he).2.1⟩
  | union ms => exact ⟨(union_ok hi hk h).inv, (union_ok hi hk h).le⟩
  | inter ms => exact ⟨(inter_ok hi hk h).inv, (inter_ok hi hk h).le⟩
  | canon t => exact ⟨(canon_ok hi hk h).inv, (canon_ok hi hk h).le⟩

theorem reachable_inv {H : Hashes} {st : Store} (h : Reachable H st) : Inv H st := by
  induction h with
  | new h => exact new_inv h
  | op _ hk h ih => exact (op_ok ih hk h).1

end Verif.Types
