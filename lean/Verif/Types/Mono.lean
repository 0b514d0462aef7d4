import Verif.Types.Order
/-!
# Lemmas: the order of types is not affected by interning more, and its recursion ends
-/

namespace Verif.Types
open Store
open Verif.Harness

/-- Everything in `st` is still in `st'`. -/
structure Le (st st' : Store) : Prop where
  types : Ext st.types st'.types
  shapes : Ext st.shapes st'.shapes
  objects : Ext st.objects st'.objects
  sigs : Ext st.sigs st'.sigs
  names : Ext st.names.byId st'.names.byId
  prims : st'.prims = st.prims
  len : st.types.length ≤ st'.types.length

theorem Le.refl (st : Store) : Le st st :=
  ⟨Ext.refl _, Ext.refl _, Ext.refl _, Ext.refl _, Ext.refl _, rfl, Nat.le_refl _⟩

theorem Le.trans {a b c : Store} (h1 : Le a b) (h2 : Le b c) : Le a c :=
  ⟨h1.types.trans h2.types, h1.shapes.trans h2.shapes, h1.objects.trans h2.objects,
    h1.sigs.trans h2.sigs, h1.names.trans h2.names, h2.prims.trans h1.prims,
    Nat.le_trans h1.len h2.len⟩

theorem isSome_ext {I V : Type} [BEq I] {m m' : List (I × V)} (h : Ext m m') {i : I}
    (hi : (m.lookup i).isSome) : (m'.lookup i).isSome := by
  obtain ⟨v, hv⟩ := Option.isSome_iff_exists.1 hi
  rw [h _ _ hv]; rfl

theorem Le.kind? {st st' : Store} (h : Le st st') {t : Nat} {k : Kind} (hk : st.kind? t = some k) :
    st'.kind? t = some k := h.types _ _ hk

theorem Le.known {st st' : Store} (h : Le st st') {t : Nat} (ht : (st.kind? t).isSome) :
    (st'.kind? t).isSome := isSome_ext h.types ht

theorem Le.kind {st st' : Store} (h : Le st st') {t : Nat} (ht : (st.kind? t).isSome) :
    st'.kind t = st.kind t := by
  obtain ⟨k, hk⟩ := Option.isSome_iff_exists.1 ht
  unfold Store.kind
  rw [hk, h.kind? hk]

theorem Le.kind?_eq {st st' : Store} (h : Le st st') {t : Nat} (ht : (st.kind? t).isSome) :
    st'.kind? t = st.kind? t := by
  obtain ⟨k, hk⟩ := Option.isSome_iff_exists.1 ht
  rw [hk, h.kind? hk]

theorem kind_of_kind? {st : Store} {t : Nat} {k : Kind} (h : st.kind? t = some k) : st.kind t = k := by
  unfold Store.kind; rw [h]; rfl

theorem kind?_of_known {st : Store} {t : Nat} (h : (st.kind? t).isSome) :
    st.kind? t = some (st.kind t) := by
  obtain ⟨k, hk⟩ := Option.isSome_iff_exists.1 h
  rw [hk, kind_of_kind? hk]

theorem Le.sig {st st' : Store} (h : Le st st') {s : Nat} (hs : (st.sigs.lookup s).isSome) :
    st'.sig s = st.sig s := by
  obtain ⟨k, hk⟩ := Option.isSome_iff_exists.1 hs
  unfold Store.sig
  rw [hk, h.sigs _ _ hk]

theorem Le.name {st st' : Store} (h : Le st st') {s : Nat} (hs : (st.names.byId.lookup s).isSome) :
    st'.name s = st.name s := by
  obtain ⟨k, hk⟩ := Option.isSome_iff_exists.1 hs
  unfold Store.name
  rw [hk, h.names _ _ hk]

/-- Everything in the store mentions only what is in the store, and types mention only types of a lower
rank (possibly through shapes and signatures). -/
structure Closed (st : Store) (r : Nat → Nat) : Prop where
  types : ∀ (t : Nat) (k : Kind), st.kind? t = some k → KindKnown st k ∧ r t < st.types.length
  sigs : ∀ (i : Nat) (s : Signature), st.sigs.lookup i = some s → TypesKnown st (sigTypes s)
  shapes : ∀ (i : Nat) (s : Shape), st.shapes.lookup i = some s → ShapeKnown st s
  objects : ∀ (i s : Nat), st.objects.lookup i = some s → (st.shapes.lookup s).isSome
  rank : ∀ (t : Nat) (k : Kind), st.kind? t = some k → ∀ c ∈ kindTypes k, r c < r t
  rankObj : ∀ (t o : Nat), st.kind? t = some (.object o) →
    (∀ c ∈ shapeTypes (st.shapeOf o), r c < r t) ∧
      ∀ s ∈ shapeSigs (st.shapeOf o), ∀ c ∈ sigTypes (st.sig s), r c < r t
  rankCall : ∀ (t : Nat) (ss : List Nat), st.kind? t = some (.callable ss) →
    ∀ s ∈ ss, ∀ c ∈ sigTypes (st.sig s), r c < r t

theorem sig_known {st : Store} {r : Nat → Nat} (hc : Closed st r) {i : Nat}
    (hi : (st.sigs.lookup i).isSome) : TypesKnown st (sigTypes (st.sig i)) := by
  obtain ⟨s, hs⟩ := Option.isSome_iff_exists.1 hi
  have := hc.sigs i s hs
  unfold Store.sig; rw [hs]; exact this

theorem shape_known {st : Store} {r : Nat → Nat} (hc : Closed st r) {o : Nat}
    (ho : (st.objects.lookup o).isSome) : ShapeKnown st (st.shapeOf o) := by
  obtain ⟨s, hs⟩ := Option.isSome_iff_exists.1 ho
  obtain ⟨x, hx⟩ := Option.isSome_iff_exists.1 (hc.objects o s hs)
  have := hc.shapes s x hx
  unfold Store.shapeOf
  rw [hs, Option.getD_some, hx]; exact this

theorem Le.shapeOf {st st' : Store} {r : Nat → Nat} (h : Le st st') (hc : Closed st r) {o : Nat}
    (ho : (st.objects.lookup o).isSome) : st'.shapeOf o = st.shapeOf o := by
  obtain ⟨s, hs⟩ := Option.isSome_iff_exists.1 ho
  obtain ⟨x, hx⟩ := Option.isSome_iff_exists.1 (hc.objects o s hs)
  unfold Store.shapeOf
  rw [hs, h.objects _ _ hs, Option.getD_some, hx, h.shapes _ _ hx]

/-! ## Congruence -/

theorem cmpList_congr {α : Type} {f g : α → α → Ordering} : ∀ (a b : List α),
    (∀ x ∈ a, ∀ y ∈ b, f x y = g x y) → cmpList f a b = cmpList g a b
  | [], [], _ => rfl
  | [], _ :: _, _ => rfl
  | _ :: _, [], _ => rfl
  | x :: xs, y :: ys, h => by
    simp only [cmpList]
    rw [h x (List.mem_cons_self ..) y (List.mem_cons_self ..),
      cmpList_congr xs ys fun u hu v hv => h u (List.mem_cons_of_mem _ hu) v (List.mem_cons_of_mem _ hv)]

theorem cmpOption_congr {α : Type} {f g : α → α → Ordering} (a b : Option α)
    (h : ∀ x ∈ a.toList, ∀ y ∈ b.toList, f x y = g x y) : cmpOption f a b = cmpOption g a b := by
  cases a <;> cases b <;> try rfl
  exact h _ (by simp) _ (by simp)

section
variable {rec rec' : Nat → Nat → Ordering} {st st' : Store}

theorem cmpSig_congr (hle : Le st st') {a b : Nat} (ha : (st.sigs.lookup a).isSome)
    (hb : (st.sigs.lookup b).isSome)
    (h : ∀ x ∈ sigTypes (st.sig a), ∀ y ∈ sigTypes (st.sig b), rec x y = rec' x y) :
    cmpSig rec st a b = cmpSig rec' st' a b := by
  unfold cmpSig
  rw [hle.sig ha, hle.sig hb]
  by_cases hab : a = b
  · simp [hab]
  · rw [if_neg hab, if_neg hab]
    unfold sigTypes at h
    simp only [List.mem_append, List.mem_map, List.mem_flatMap, List.mem_singleton] at h
    congr 1
    · unfold cmpParams
      refine cmpList_congr _ _ fun x hx y hy => ?_
      rw [h _ (.inl (.inl (.inl ⟨x, hx, rfl⟩))) _ (.inl (.inl (.inl ⟨y, hy, rfl⟩)))]
    · congr 1
      · exact h _ (.inl (.inl (.inr rfl))) _ (.inl (.inl (.inr rfl)))
      · congr 1
        · unfold cmpTypeParams
          refine cmpList_congr _ _ fun x hx y hy => ?_
          rw [cmpOption_congr x.constraint y.constraint (fun u hu v hv =>
              h u (.inl (.inr ⟨x, hx, .inl hu⟩)) v (.inl (.inr ⟨y, hy, .inl hv⟩))),
            cmpOption_congr x.default_ y.default_ (fun u hu v hv =>
              h u (.inl (.inr ⟨x, hx, .inr hu⟩)) v (.inl (.inr ⟨y, hy, .inr hv⟩)))]
        · congr 1
          exact cmpOption_congr _ _ fun u hu v hv => h u (.inr hu) v (.inr hv)

theorem cmpSigs_congr (hle : Le st st') {a b : List Nat} (ha : SigsKnown st a) (hb : SigsKnown st b)
    (h : ∀ s ∈ a, ∀ x ∈ sigTypes (st.sig s), ∀ t ∈ b, ∀ y ∈ sigTypes (st.sig t), rec x y = rec' x y) :
    cmpSigs rec st a b = cmpSigs rec' st' a b := by
  unfold cmpSigs
  exact cmpList_congr _ _ fun s hs t ht => cmpSig_congr hle (ha s hs) (hb t ht)
    fun x hx y hy => h s hs x hx t ht y hy

theorem cmpKey_congr (hle : Le st st') {a b : PropKey} (ha : KeyKnown st a) (hb : KeyKnown st b) :
    st.cmpKey a b = st'.cmpKey a b := by
  unfold Store.cmpKey
  cases a <;> cases b <;> simp only [KeyKnown] at ha hb ⊢ <;> try rfl
  all_goals rw [hle.name ha, hle.name hb]

theorem cmpShape_congr (hle : Le st st') {a b : Shape} (ha : ShapeKnown st a) (hb : ShapeKnown st b)
    (h : ∀ x ∈ shapeTypes a, ∀ y ∈ shapeTypes b, rec x y = rec' x y)
    (hs : ∀ s ∈ shapeSigs a, ∀ x ∈ sigTypes (st.sig s), ∀ t ∈ shapeSigs b, ∀ y ∈ sigTypes (st.sig t),
      rec x y = rec' x y) :
    cmpShape rec st a b = cmpShape rec' st' a b := by
  unfold shapeTypes at h
  simp only [List.mem_append, List.mem_map, List.mem_flatMap] at h
  have hsa := ha.sigs
  have hsb := hb.sigs
  unfold shapeSigs at hs hsa hsb
  unfold cmpShape
  congr 1
  · refine cmpList_congr _ _ fun x hx y hy => ?_
    unfold cmpProp
    rw [h _ (.inl ⟨x, hx, rfl⟩) _ (.inl ⟨y, hy, rfl⟩), cmpKey_congr hle (ha.keys x hx) (hb.keys y hy)]
  · congr 1
    · exact cmpSigs_congr hle (fun s hx => hsa s (List.mem_append_left _ hx))
        (fun s hx => hsb s (List.mem_append_left _ hx))
        (fun s hx x hx' t ht y hy => hs s (List.mem_append_left _ hx) x hx' t
          (List.mem_append_left _ ht) y hy)
    · congr 1
      · exact cmpSigs_congr hle (fun s hx => hsa s (List.mem_append_right _ hx))
          (fun s hx => hsb s (List.mem_append_right _ hx))
          (fun s hx x hx' t ht y hy => hs s (List.mem_append_right _ hx) x hx' t
            (List.mem_append_right _ ht) y hy)
      · refine cmpList_congr _ _ fun x hx y hy => ?_
        unfold cmpIndexer
        rw [h x.keyType (.inr ⟨x, hx, by simp⟩) y.keyType (.inr ⟨y, hy, by simp⟩),
          h x.valueType (.inr ⟨x, hx, by simp⟩) y.valueType (.inr ⟨y, hy, by simp⟩)]

/-- The types that comparing `a` with something leads to. -/
def Below (st : Store) (a : Kind) (c : Nat) : Prop :=
  c ∈ kindTypes a ∨ (∃ o, a = .object o ∧ (c ∈ shapeTypes (st.shapeOf o) ∨
    ∃ s ∈ shapeSigs (st.shapeOf o), c ∈ sigTypes (st.sig s))) ∨
  ∃ ss, a = .callable ss ∧ ∃ s ∈ ss, c ∈ sigTypes (st.sig s)

theorem cmpKind_congr {r : Nat → Nat} (hle : Le st st') (hc : Closed st r) {a b : Kind}
    (ha : KindKnown st a) (hb : KindKnown st b)
    (h : ∀ x y, Below st a x → Below st b y → rec x y = rec' x y) :
    cmpKind rec st a b = cmpKind rec' st' a b := by
  have h0 : ∀ x ∈ kindTypes a, ∀ y ∈ kindTypes b, rec x y = rec' x y :=
    fun x hx y hy => h x y (.inl hx) (.inl hy)
  cases a <;> cases b <;> try rfl
  case strLit.strLit m n =>
    simp only [cmpKind]
    rw [hle.name (ha.name _ rfl), hle.name (hb.name _ rfl)]
  case infer.infer p c q d =>
    simp only [cmpKind]
    rw [cmpOption_congr c d h0]
  case tuple.tuple a b =>
    simp only [cmpKind]
    refine cmpList_congr _ _ fun x hx y hy => ?_
    unfold cmpElem
    rw [h0 x.ty (List.mem_map.2 ⟨x, hx, rfl⟩) y.ty (List.mem_map.2 ⟨y, hy, rfl⟩)]
  case array.array a ra b rb =>
    simp only [cmpKind]
    rw [h0 a (by simp [kindTypes]) b (by simp [kindTypes])]
  case union.union a b =>
    simp only [cmpKind, cmpSlices]
    exact cmpList_congr _ _ h0
  case inter.inter a b =>
    simp only [cmpKind, cmpSlices]
    exact cmpList_congr _ _ h0
  case object.object o p =>
    simp only [cmpKind]
    rw [hle.shapeOf hc (ha.object _ rfl), hle.shapeOf hc (hb.object _ rfl)]
    refine cmpShape_congr hle (shape_known hc (ha.object _ rfl)) (shape_known hc (hb.object _ rfl)) ?_ ?_
    · exact fun x hx y hy => h x y (.inr (.inl ⟨o, rfl, .inl hx⟩)) (.inr (.inl ⟨p, rfl, .inl hy⟩))
    · exact fun s hs x hx t ht y hy =>
        h x y (.inr (.inl ⟨o, rfl, .inr ⟨s, hs, hx⟩⟩)) (.inr (.inl ⟨p, rfl, .inr ⟨t, ht, hy⟩⟩))
  case callable.callable a b =>
    simp only [cmpKind]
    exact cmpSigs_congr hle (ha.sigs _ rfl) (hb.sigs _ rfl) fun s hs x hx t ht y hy =>
      h x y (.inr (.inr ⟨a, rfl, s, hs, hx⟩)) (.inr (.inr ⟨b, rfl, t, ht, hy⟩))
  case ref.ref d a e b =>
    simp only [cmpKind, cmpSlices]
    rw [cmpList_congr a b h0]
  case predicate.predicate p a x q b y =>
    simp only [cmpKind]
    rw [cmpOption_congr a b h0]
  case conditional.conditional c e t f d c' e' t' f' d' =>
    simp only [cmpKind]
    rw [h0 c (by simp [kindTypes]) c' (by simp [kindTypes]),
      h0 e (by simp [kindTypes]) e' (by simp [kindTypes]),
      h0 t (by simp [kindTypes]) t' (by simp [kindTypes]),
      h0 f (by simp [kindTypes]) f' (by simp [kindTypes])]
  case mapped.mapped a b =>
    simp only [cmpKind, cmpMapped]
    unfold kindTypes at h0
    simp only [List.mem_append, List.mem_cons, List.not_mem_nil, or_false] at h0
    rw [h0 a.source (.inl (.inl (.inl rfl))) b.source (.inl (.inl (.inl rfl))),
      h0 a.value (.inl (.inl (.inr rfl))) b.value (.inl (.inl (.inr rfl))),
      cmpOption_congr a.nameType b.nameType (fun u hu v hv => h0 u (.inl (.inr hu)) v (.inl (.inr hv))),
      cmpOption_congr a.asType b.asType (fun u hu v hv => h0 u (.inr hu) v (.inr hv))]
  case template.template h1 s1 h2 s2 =>
    simp only [cmpKind]
    rw [cmpList_congr s1 s2 fun x hx y hy => by
      rw [h0 x.ty (List.mem_map.2 ⟨x, hx, rfl⟩) y.ty (List.mem_map.2 ⟨y, hy, rfl⟩)]]
  case indexed.indexed o i p j =>
    simp only [cmpKind]
    rw [h0 o (by simp [kindTypes]) p (by simp [kindTypes]),
      h0 i (by simp [kindTypes]) j (by simp [kindTypes])]
  case keyOf.keyOf a b =>
    simp only [cmpKind]
    rw [h0 a (by simp [kindTypes]) b (by simp [kindTypes])]
  case intrinsic.intrinsic k a l b =>
    simp only [cmpKind]
    rw [h0 a (by simp [kindTypes]) b (by simp [kindTypes])]

end

theorem below_known {st : Store} {r : Nat → Nat} (hc : Closed st r) {t : Nat} {k : Kind}
    (ht : st.kind? t = some k) {c : Nat} (h : Below st k c) : (st.kind? c).isSome ∧ r c < r t := by
  have hk := (hc.types t k ht).1
  rcases h with h | ⟨o, rfl, h⟩ | ⟨ss, rfl, s, hs, h⟩
  · exact ⟨hk.types c h, hc.rank t k ht c h⟩
  · have hsh := shape_known hc (hk.object o rfl)
    rcases h with h | ⟨s, hs, h⟩
    · exact ⟨hsh.types c h, (hc.rankObj t o ht).1 c h⟩
    · exact ⟨sig_known hc (hsh.sigs s hs) c h, (hc.rankObj t o ht).2 s hs c h⟩
  · exact ⟨sig_known hc (hk.sigs ss rfl s hs) c h, hc.rankCall t ss ht s hs c h⟩

/-- The bound on the recursion does not matter once it exceeds the ranks, and neither do later
additions to the store. -/
theorem typeCmpN_mono {st st' : Store} {r : Nat → Nat} (hle : Le st st') (hc : Closed st r) :
    ∀ (n m a b : Nat), (st.kind? a).isSome → (st.kind? b).isSome → r a < n → r b < n → r a < m →
      r b < m → st.typeCmpN n a b = st'.typeCmpN m a b
  | 0, _, _, _, _, _, h, _, _, _ => absurd h (Nat.not_lt_zero _)
  | _ + 1, 0, _, _, _, _, _, _, h, _ => absurd h (Nat.not_lt_zero _)
  | n + 1, m + 1, a, b, ha, hb, h1, h2, h3, h4 => by
    show typeCmpWith _ _ _ _ = typeCmpWith _ _ _ _
    unfold typeCmpWith
    by_cases hab : a = b
    · simp [hab]
    · rw [if_neg hab, if_neg hab, hle.kind ha, hle.kind hb]
      have ka := kind?_of_known ha
      have kb := kind?_of_known hb
      rw [cmpKind_congr hle hc (hc.types a _ ka).1 (hc.types b _ kb).1 ?_]
      intro x y hx hy
      obtain ⟨hx1, hx2⟩ := below_known hc ka hx
      obtain ⟨hy1, hy2⟩ := below_known hc kb hy
      exact typeCmpN_mono hle hc n m x y hx1 hy1 (by omega) (by omega) (by omega) (by omega)

theorem Closed.lt {st : Store} {r : Nat → Nat} (hc : Closed st r) {a : Nat} (ha : (st.kind? a).isSome) :
    r a < st.types.length := by
  obtain ⟨k, hk⟩ := Option.isSome_iff_exists.1 ha
  exact (hc.types a k hk).2

/-- `type_cmp` satisfies its own recursive definition: the bound is never reached. -/
theorem typeCmp_unfold {st : Store} {r : Nat → Nat} (hc : Closed st r) {a b : Nat}
    (ha : (st.kind? a).isSome) (hb : (st.kind? b).isSome) :
    st.typeCmp a b = typeCmpWith st.typeCmp st a b :=
  typeCmpN_mono (Le.refl st) hc _ (st.types.length + 1) a b ha hb (hc.lt ha) (hc.lt hb)
    (Nat.lt_succ_of_lt (hc.lt ha)) (Nat.lt_succ_of_lt (hc.lt hb))

theorem typeCmp_mono {st st' : Store} {r : Nat → Nat} (hle : Le st st') (hc : Closed st r) {a b : Nat}
    (ha : (st.kind? a).isSome) (hb : (st.kind? b).isSome) : st'.typeCmp a b = st.typeCmp a b :=
  (typeCmpN_mono hle hc _ _ a b ha hb (hc.lt ha) (hc.lt hb) (Nat.lt_of_lt_of_le (hc.lt ha) hle.len)
    (Nat.lt_of_lt_of_le (hc.lt hb) hle.len)).symm

end Verif.Types
