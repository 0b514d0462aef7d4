import Verif.Types.Shapes
import Verif.Types.InternTheorems
/-!
# C67: a store restored from its snapshot is as good as the original
-/

namespace Verif.Types
open Store
open Verif.Harness
open Verif.Rename (lookup_of_mem mem_of_lookup lookup_none_iff)

/-! ## The code -/

/-- `store.rs` 135–152: `TypeStoreSnapshot`, without the options. -/
structure Snapshot where
  prims : Primitives
  types : List (Nat × Kind)
  shapes : List (Nat × Shape)
  objects : List (Nat × Nat)
  sigs : List (Nat × Signature)
  names : List (Nat × List Nat)

/-- `store.rs` 388–435: `snapshot`. -/
def Store.snapshot (st : Store) : Snapshot :=
  { prims := st.prims
    types := snapshotMap (fun a b : Nat => compare a b) st.types
    shapes := snapshotMap (fun a b : Nat => compare a b) st.shapes
    objects := snapshotMap (fun a b : Nat => compare a b) st.objects
    sigs := snapshotMap (fun a b : Nat => compare a b) st.sigs
    names := snapshotMap (fun a b : Nat => compare a b) st.names.byId }

/-- `store.rs` 460–466: the names are put into both tables. -/
def restoreNames (es : List (Nat × List Nat)) : Names :=
  es.foldl (fun n e => ⟨(e.2, e.1) :: n.byName, e :: n.byId⟩) ⟨[], []⟩

/-- `store.rs` 437–495: `from_snapshot_inner`; `none` is a panic. The debug assertions (482–493) about
primitive types are not modelled. -/
def Snapshot.restore (s : Snapshot) : Option Store :=
  match restoreMap s.types, restoreMap s.shapes, restoreMap s.objects, restoreMap s.sigs with
  | some types, some shapes, some objects, some sigs =>
    some ⟨types, shapes, objects, sigs, restoreNames s.names, s.prims⟩
  | _, _, _, _ => none

/-! ## Stores with the same contents -/

/-- The same entries, possibly stored in another order. -/
structure Same (a b : Store) : Prop where
  types : ∀ i, b.types.lookup i = a.types.lookup i
  len : b.types.length = a.types.length
  shapes : ∀ i, b.shapes.lookup i = a.shapes.lookup i
  objects : ∀ i, b.objects.lookup i = a.objects.lookup i
  sigs : ∀ i, b.sigs.lookup i = a.sigs.lookup i
  byId : ∀ i, b.names.byId.lookup i = a.names.byId.lookup i
  byName : ∀ n, b.names.byName.lookup n = a.names.byName.lookup n
  prims : b.prims = a.prims

/-- Both fail, or both answer the same and leave the same contents. -/
def Agree {α : Type} (x y : Option (Store × α)) : Prop :=
  (x = none ∧ y = none) ∨ ∃ s t a, x = some (s, a) ∧ y = some (t, a) ∧ Same s t

theorem agree_some {α : Type} {s t : Store} (a : α) (h : Same s t) :
    Agree (some (s, a)) (some (t, a)) := .inr ⟨s, t, a, rfl, rfl, h⟩

theorem agree_none {α : Type} : Agree (α := α) none none := .inl ⟨rfl, rfl⟩

variable {H : Hashes}

theorem Same.kindQ {a b : Store} (h : Same a b) : b.kind? = a.kind? := funext h.types
theorem Same.kind {a b : Store} (h : Same a b) : b.kind = a.kind := by
  funext t; unfold Store.kind; rw [h.kindQ]
theorem Same.sig {a b : Store} (h : Same a b) : b.sig = a.sig := by
  funext t; unfold Store.sig; rw [h.sigs]
theorem Same.shapeOf {a b : Store} (h : Same a b) : b.shapeOf = a.shapeOf := by
  funext t; unfold Store.shapeOf; rw [h.objects, h.shapes]
theorem Same.name {a b : Store} (h : Same a b) : b.name = a.name := by
  funext t; unfold Store.name; rw [h.byId]
theorem Same.cmpKey {a b : Store} (h : Same a b) : b.cmpKey = a.cmpKey := by
  funext x y; unfold Store.cmpKey; rw [h.name]
theorem Same.cmpSig {a b : Store} (h : Same a b) (r : Nat → Nat → Ordering) :
    Store.cmpSig r b = Store.cmpSig r a := by
  funext x y; unfold Store.cmpSig; rw [h.sig]
theorem Same.cmpShape {a b : Store} (h : Same a b) (r : Nat → Nat → Ordering) :
    Store.cmpShape r b = Store.cmpShape r a := by
  funext x y; unfold Store.cmpShape Store.cmpSigs Store.cmpProp; rw [h.cmpSig, h.cmpKey]
theorem Same.cmpKind {a b : Store} (h : Same a b) (r : Nat → Nat → Ordering) :
    Store.cmpKind r b = Store.cmpKind r a := by
  funext x y; unfold Store.cmpKind Store.cmpSigs; rw [h.cmpShape, h.name, h.shapeOf, h.cmpSig]
theorem Same.typeCmpN {a b : Store} (h : Same a b) : ∀ n, b.typeCmpN n = a.typeCmpN n
  | 0 => by funext x y; rfl
  | n + 1 => by
    funext x y
    unfold Store.typeCmpN Store.typeCmpWith
    rw [h.typeCmpN n, h.kind, h.cmpKind]
theorem Same.typeCmp {a b : Store} (h : Same a b) : b.typeCmp = a.typeCmp := by
  funext x y; unfold Store.typeCmp; rw [h.len, h.typeCmpN]
theorem Same.sigCmp {a b : Store} (h : Same a b) : b.sigCmp = a.sigCmp := by
  funext x y; unfold Store.sigCmp; rw [h.typeCmp, h.cmpSig]
theorem Same.sortDedup {a b : Store} (h : Same a b) : b.sortDedup = a.sortDedup := by
  funext x; unfold Store.sortDedup; rw [h.typeCmp]

/-! ## Interning in both -/

section
variable {V : Type} [DecidableEq V]

/-- Interning into maps with the same entries. -/
theorem insert_same {mk : V → Nat → Nat} {m m' : List (Nat × V)} {v : V}
    (hl : ∀ i, m'.lookup i = m.lookup i) :
    (insertWithCollision mk m v = none ∧ insertWithCollision mk m' v = none) ∨
    ∃ M M' i, insertWithCollision mk m v = some (M, i) ∧ insertWithCollision mk m' v = some (M', i) ∧
      (∀ i, M'.lookup i = M.lookup i) ∧ (m'.length = m.length → M'.length = M.length) := by
  unfold insertWithCollision
  generalize 2 ^ 64 = n
  suffices hs : ∀ n t, (insertFrom mk m v n t = none ∧ insertFrom mk m' v n t = none) ∨
      ∃ M M' i, insertFrom mk m v n t = some (M, i) ∧ insertFrom mk m' v n t = some (M', i) ∧
      (∀ i, M'.lookup i = M.lookup i) ∧ (m'.length = m.length → M'.length = M.length) from hs n 0
  intro n
  induction n with
  | zero => intro t; exact .inl ⟨rfl, rfl⟩
  | succ n ih =>
    intro t
    unfold insertFrom pass
    simp only [hl]
    cases m.lookup (mk v (saltAt t)) with
    | none =>
      refine .inr ⟨_, _, _, rfl, rfl, ?_, ?_⟩
      · intro i; simp only [List.lookup_cons, hl]
      · intro hn; simp only [List.length_cons, hn]
    | some w =>
      by_cases e : w = v
      · simp only [e, if_true]
        exact .inr ⟨_, _, _, rfl, rfl, hl, id⟩
      · simp only [e, if_false]
        exact ih (t + 1)
end

theorem insertType_same {a b : Store} (h : Same a b) (k : Kind) :
    Agree (a.insertType H k) (b.insertType H k) := by
  unfold Store.insertType
  rcases insert_same (mk := H.type) (v := k) h.types with ⟨e1, e2⟩ | ⟨M, M', i, e1, e2, hl, hn⟩
  · rw [e1, e2]; exact agree_none
  · rw [e1, e2]
    exact agree_some _ ⟨hl, hn h.len, h.shapes, h.objects, h.sigs, h.byId, h.byName, h.prims⟩

/-- A way of making members canonical that does the same in both stores. -/
def CanonSame (c : Canon) : Prop := ∀ a b, Same a b → ∀ t, Agree (c a t) (c b t)

theorem unionScan_same {c : Canon} (hc : CanonSame c) : ∀ (ms : List Nat) (a b : Store) (flat : List Nat)
    (u : Bool), Same a b → Agree (unionScan c a ms flat u) (unionScan c b ms flat u)
  | [], a, b, flat, u, h => agree_some _ h
  | m :: ms, a, b, flat, u, h => by
    unfold unionScan
    rcases hc a b h m with ⟨e1, e2⟩ | ⟨a', b', x, e1, e2, h'⟩
    · rw [e1, e2]; exact agree_none
    · rw [e1, e2]
      simp only [h'.kindQ]
      split
      · exact agree_none
      · exact agree_some _ h'
      · exact unionScan_same hc ms _ _ _ _ h'
      · exact unionScan_same hc ms _ _ _ _ h'
      · exact unionScan_same hc ms _ _ _ _ h'
      · exact unionScan_same hc ms _ _ _ _ h'

theorem unionFinish_same {a b : Store} (h : Same a b) (flat : List Nat) :
    Agree (a.unionFinish H flat) (b.unionFinish H flat) := by
  unfold Store.unionFinish
  have hk : b.unionKeeps = a.unionKeeps := by
    funext f m; unfold Store.unionKeeps Store.hasKind; rw [h.kind]
  have hb : b.isBoolLit = a.isBoolLit := by funext m; unfold Store.isBoolLit; rw [h.kind]
  rw [h.sortDedup, hk, hb, h.prims]
  split
  · exact agree_some _ h
  · exact agree_some _ h
  · split
    · exact agree_some _ h
    · exact insertType_same h _
  · exact insertType_same h _

theorem unionWith_same {c : Canon} (hc : CanonSame c) {a b : Store} (h : Same a b) (ms : List Nat) :
    Agree (unionWith H c a ms) (unionWith H c b ms) := by
  unfold unionWith
  rcases unionScan_same hc ms a b [] false h with ⟨e1, e2⟩ | ⟨a', b', x, e1, e2, h'⟩
  · rw [e1, e2]; exact agree_none
  · rw [e1, e2]
    match x with
    | none => simp only [h'.prims]; exact agree_some _ h'
    | some (flat, u) =>
      simp only [h'.prims]
      split
      · exact agree_some _ h'
      · exact unionFinish_same h' flat

theorem interScan_same {c : Canon} (hc : CanonSame c) : ∀ (ms : List Nat) (a b : Store) (flat : List Nat)
    (u : Bool), Same a b → Agree (interScan c a ms flat u) (interScan c b ms flat u)
  | [], a, b, flat, u, h => agree_some _ h
  | m :: ms, a, b, flat, u, h => by
    unfold interScan
    rcases hc a b h m with ⟨e1, e2⟩ | ⟨a', b', x, e1, e2, h'⟩
    · rw [e1, e2]; exact agree_none
    · rw [e1, e2]
      simp only [h'.kindQ]
      split
      · exact agree_none
      · exact agree_some _ h'
      · exact interScan_same hc ms _ _ _ _ h'
      · exact interScan_same hc ms _ _ _ _ h'
      · exact interScan_same hc ms _ _ _ _ h'
      · exact interScan_same hc ms _ _ _ _ h'

theorem interFinish_same {a b : Store} (h : Same a b) (flat : List Nat) :
    Agree (a.interFinish H flat) (b.interFinish H flat) := by
  unfold Store.interFinish
  have hk : b.interKeeps = a.interKeeps := by
    funext f m; unfold Store.interKeeps Store.hasLit; rw [h.kind]
  have hs : b.scanStep = a.scanStep := by funext s m; unfold Store.scanStep; rw [h.kind]
  rw [hk, h.sortDedup, hs, h.prims]
  split
  · exact agree_some _ h
  · split
    · exact agree_some _ h
    · split
      · exact agree_some _ h
      · exact insertType_same h _

theorem interWith_same {c : Canon} (hc : CanonSame c) {a b : Store} (h : Same a b) (ms : List Nat) :
    Agree (interWith H c a ms) (interWith H c b ms) := by
  unfold interWith
  rcases interScan_same hc ms a b [] false h with ⟨e1, e2⟩ | ⟨a', b', x, e1, e2, h'⟩
  · rw [e1, e2]; exact agree_none
  · rw [e1, e2]
    match x with
    | none => simp only [h'.prims]; exact agree_some _ h'
    | some (flat, u) =>
      simp only [h'.prims]
      split
      · exact agree_some _ h'
      · exact interFinish_same h' flat

theorem canonN_same : ∀ n, CanonSame (canonN H n)
  | 0, _, _, _, _ => agree_none
  | n + 1, a, b, h, t => by
    unfold canonN
    rw [h.kindQ]
    split
    · exact agree_none
    · exact unionWith_same (canonN_same n) h _
    · exact interWith_same (canonN_same n) h _
    · exact agree_some _ h

theorem canon_same : CanonSame (canon H) := by
  intro a b h t
  unfold canon
  rw [h.len]
  exact canonN_same _ a b h t

theorem canonList_same : ∀ (ts : List Nat) (a b : Store), Same a b →
    Agree (canonList H a ts) (canonList H b ts)
  | [], a, b, h => agree_some _ h
  | t :: ts, a, b, h => by
    unfold canonList
    rcases canon_same (H := H) a b h t with ⟨e1, e2⟩ | ⟨a', b', x, e1, e2, h'⟩
    · rw [e1, e2]; exact agree_none
    · rw [e1, e2]
      simp only
      rcases canonList_same ts a' b' h' with ⟨e1, e2⟩ | ⟨a', b', x, e1, e2, h'⟩
      · rw [e1, e2]; exact agree_none
      · rw [e1, e2]; exact agree_some _ h'

theorem internType_same {a b : Store} (h : Same a b) (k : Kind) :
    Agree (a.internType H k) (b.internType H k) := by
  unfold Store.internType
  split
  · exact unionWith_same canon_same h _
  · exact interWith_same canon_same h _
  · rcases canonList_same (H := H) (kindArgs k) a b h with ⟨e1, e2⟩ | ⟨a', b', x, e1, e2, h'⟩
    · rw [e1, e2]; exact agree_none
    · rw [e1, e2]
      have hs : b'.setKindArgs = a'.setKindArgs := by
        funext k ts; unfold Store.setKindArgs; rw [h'.sigCmp]
      simp only [hs]
      exact insertType_same h' _

theorem internSignature_same {a b : Store} (h : Same a b) (s : Signature) :
    Agree (a.internSignature H s) (b.internSignature H s) := by
  unfold Store.internSignature
  rcases canonList_same (H := H) (sigArgs s) a b h with ⟨e1, e2⟩ | ⟨a', b', x, e1, e2, h'⟩
  · rw [e1, e2]; exact agree_none
  · rw [e1, e2]
    simp only
    rcases insert_same (mk := H.sig) (v := setSigArgs s x) h'.sigs with
      ⟨e1, e2⟩ | ⟨M, M', i, e1, e2, hl, _⟩
    · rw [e1, e2]; exact agree_none
    · rw [e1, e2]
      exact agree_some _ ⟨h'.types, h'.len, h'.shapes, h'.objects, hl, h'.byId, h'.byName, h'.prims⟩

theorem mergeProps_same : ∀ (ps acc : List Property) (c : Bool) (a b : Store), Same a b →
    Agree (mergeProps H a ps acc c) (mergeProps H b ps acc c)
  | [], acc, c, a, b, h => by unfold mergeProps; exact agree_some _ h
  | p :: ps, [], c, a, b, h => by unfold mergeProps; exact mergeProps_same ps _ _ a b h
  | p :: ps, last :: acc, c, a, b, h => by
    unfold mergeProps
    split
    · rcases interWith_same (H := H) canon_same h [last.data.ty, p.data.ty] with
        ⟨e1, e2⟩ | ⟨a', b', x, e1, e2, h'⟩
      · unfold Store.intersection; rw [e1, e2]; exact agree_none
      · unfold Store.intersection; rw [e1, e2]
        exact mergeProps_same ps _ _ a' b' h'
    · exact mergeProps_same ps _ _ a b h

theorem mergeIndexers_same : ∀ (ps acc : List Indexer) (a b : Store), Same a b →
    Agree (mergeIndexers H a ps acc) (mergeIndexers H b ps acc)
  | [], acc, a, b, h => by unfold mergeIndexers; exact agree_some _ h
  | p :: ps, [], a, b, h => by unfold mergeIndexers; exact mergeIndexers_same ps _ a b h
  | p :: ps, last :: acc, a, b, h => by
    unfold mergeIndexers
    split
    · rcases interWith_same (H := H) canon_same h [last.valueType, p.valueType] with
        ⟨e1, e2⟩ | ⟨a', b', x, e1, e2, h'⟩
      · unfold Store.intersection; rw [e1, e2]; exact agree_none
      · unfold Store.intersection; rw [e1, e2]
        exact mergeIndexers_same ps _ a' b' h'
    · exact mergeIndexers_same ps _ a b h

theorem internShape_same {a b : Store} (h : Same a b) (s : Shape) :
    Agree (a.internShape H s) (b.internShape H s) := by
  unfold Store.internShape
  rcases canonList_same (H := H) (shapeArgs s) a b h with ⟨e1, e2⟩ | ⟨a1, b1, ts, e1, e2, h1⟩
  · rw [e1, e2]; exact agree_none
  · rw [e1, e2]
    simp only [h1.cmpKey]
    rcases mergeProps_same (H := H) (sortBy (fun a b => a1.cmpKey a.key b.key)
      (List.zipWith (fun p t => (⟨p.key, { p.data with ty := t }⟩ : Property)) s.properties
        (ts.take s.properties.length))) [] false a1 b1 h1 with ⟨e1, e2⟩ | ⟨a2, b2, ps, e1, e2, h2⟩
    · rw [e1, e2]; exact agree_none
    · rw [e1, e2]
      simp only [h2.sigCmp, h2.typeCmp]
      rcases mergeIndexers_same (H := H) (sortBy (cmpIndexer a2.typeCmp)
        (setIndexers s.indexers (ts.drop s.properties.length))) [] a2 b2 h2 with
        ⟨e1, e2⟩ | ⟨a3, b3, xs, e1, e2, h3⟩
      · rw [e1, e2]; exact agree_none
      · rw [e1, e2]
        simp only
        rcases insert_same (mk := H.shape) (v := ⟨ps, sortBy a2.sigCmp (stableDedup s.callSigs),
          sortBy a2.sigCmp (stableDedup s.constructSigs), xs⟩) h3.shapes with
          ⟨e1, e2⟩ | ⟨M, M', i, e1, e2, hl, _⟩
        · rw [e1, e2]; exact agree_none
        · rw [e1, e2]
          exact agree_some _ ⟨h3.types, h3.len, hl, h3.objects, h3.sigs, h3.byId, h3.byName, h3.prims⟩

theorem probe_same {mk : List Nat → Nat → Nat} {m m' : Names} {n : List Nat}
    (h1 : ∀ i, m'.byId.lookup i = m.byId.lookup i) (h2 : ∀ i, m'.byName.lookup i = m.byName.lookup i) :
    ∀ f t, (m.probe mk n f t = none ∧ m'.probe mk n f t = none) ∨
    ∃ M M' i, m.probe mk n f t = some (M, i) ∧ m'.probe mk n f t = some (M', i) ∧
      (∀ i, M'.byId.lookup i = M.byId.lookup i) ∧ ∀ i, M'.byName.lookup i = M.byName.lookup i
  | 0, _ => .inl ⟨rfl, rfl⟩
  | f + 1, t => by
    unfold Names.probe
    simp only [h1]
    cases m.byId.lookup (mk n (saltAt t)) with
    | none =>
      refine .inr ⟨_, _, _, rfl, rfl, ?_, ?_⟩
      · intro i; simp only [List.lookup_cons, h1]
      · intro i; simp only [List.lookup_cons, h2]
    | some w =>
      by_cases e : w = n
      · simp only [e, if_true]
        refine .inr ⟨_, _, _, rfl, rfl, h1, ?_⟩
        intro i; simp only [List.lookup_cons, h2]
      · simp only [e, if_false]
        exact probe_same h1 h2 f (t + 1)

/-- Every operation does the same in both stores. -/
theorem op_same {a b : Store} (h : Same a b) (o : Op) : Agree (o.run H a) (o.run H b) := by
  cases o with
  | name s =>
    show Agree (a.internName H s) (b.internName H s)
    unfold Store.internName Names.intern
    rw [h.byName]
    cases a.names.byName.lookup s with
    | some i => exact agree_some _ h
    | none =>
      simp only
      rcases probe_same (mk := H.name) (n := s) h.byId h.byName (2 ^ 64) 0 with
        ⟨e1, e2⟩ | ⟨M, M', i, e1, e2, hl, hl'⟩
      · rw [e1, e2]; exact agree_none
      · rw [e1, e2]
        exact agree_some _ ⟨h.types, h.len, h.shapes, h.objects, h.sigs, hl, hl', h.prims⟩
  | type k => exact internType_same h k
  | signature s => exact internSignature_same h s
  | shape s => exact internShape_same h s
  | object sh =>
    show Agree (a.internObject H sh) (b.internObject H sh)
    unfold Store.internObject
    rcases insert_same (mk := H.object) (v := sh) h.objects with ⟨e1, e2⟩ | ⟨M, M', i, e1, e2, hl, _⟩
    · rw [e1, e2]; exact agree_none
    · rw [e1, e2]
      exact agree_some _ ⟨h.types, h.len, h.shapes, hl, h.sigs, h.byId, h.byName, h.prims⟩
  | union ms => exact unionWith_same canon_same h ms
  | inter ms => exact interWith_same canon_same h ms
  | canon t => exact canon_same a b h t

/-! ## Restoring -/

theorem restoreMap_spec {V : Type} [DecidableEq V] {m : List (Nat × V)} (hn : (m.map Prod.fst).Nodup) :
    ∃ m', restoreMap (snapshotMap (fun a b : Nat => compare a b) m) = some m' ∧
      (∀ i, m'.lookup i = m.lookup i) ∧ m'.length = m.length := by
  have hp : (snapshotMap (fun a b : Nat => compare a b) m).Perm m := sortBy_perm m
  have hn' : ((snapshotMap (fun a b : Nat => compare a b) m ++ []).map Prod.fst).Nodup := by
    rw [List.append_nil]; exact (hp.map Prod.fst).nodup_iff.2 hn
  refine ⟨_, restore_spec _ [] hn', ?_, ?_⟩
  · rw [List.append_nil]
    exact lookup_perm (hp.symm.trans (List.reverse_perm _).symm) hn
  · rw [List.append_nil, List.length_reverse]
    exact hp.length_eq

theorem restoreNames_eq (es : List (Nat × List Nat)) :
    restoreNames es = ⟨(es.map fun e => (e.2, e.1)).reverse, es.reverse⟩ := by
  unfold restoreNames
  suffices h : ∀ (es : List (Nat × List Nat)) (n : Names),
      es.foldl (fun n e => (⟨(e.2, e.1) :: n.byName, e :: n.byId⟩ : Names)) n =
      ⟨(es.map fun e => (e.2, e.1)).reverse ++ n.byName, es.reverse ++ n.byId⟩ by
    rw [h]; simp only [List.append_nil]
  intro es
  induction es with
  | nil => intro n; rfl
  | cons e es ih => intro n; rw [List.foldl_cons, ih]; simp

theorem restoreNames_spec {n : Names} (hn : NamesOk n) :
    (∀ i, (restoreNames (snapshotMap (fun a b : Nat => compare a b) n.byId)).byId.lookup i =
      n.byId.lookup i) ∧
    ∀ s, (restoreNames (snapshotMap (fun a b : Nat => compare a b) n.byId)).byName.lookup s =
      n.byName.lookup s := by
  rw [restoreNames_eq]
  have hp : (snapshotMap (fun a b : Nat => compare a b) n.byId).Perm n.byId := sortBy_perm _
  refine ⟨lookup_perm (hp.symm.trans (List.reverse_perm _).symm) hn.nodup, fun s => ?_⟩
  simp only
  have hmem : ∀ s i, (s, i) ∈ ((snapshotMap (fun a b : Nat => compare a b) n.byId).map
      fun e => (e.2, e.1)).reverse ↔ n.byId.lookup i = some s := by
    intro s i
    rw [List.mem_reverse, List.mem_map]
    constructor
    · rintro ⟨⟨j, t⟩, hm, e⟩
      simp only [Prod.mk.injEq] at e
      obtain ⟨rfl, rfl⟩ := e
      exact lookup_of_mem hn.nodup (hp.mem_iff.1 hm)
    · intro h
      exact ⟨(i, s), hp.mem_iff.2 (mem_of_lookup h), rfl⟩
  cases e : n.byName.lookup s with
  | some i =>
    cases e' : List.lookup s ((snapshotMap (fun a b : Nat => compare a b) n.byId).map
      fun e => (e.2, e.1)).reverse with
    | some j =>
      have := hn.back _ _ ((hmem s j).1 (mem_of_lookup e'))
      rw [e] at this
      exact this.symm
    | none =>
      exact absurd ((hmem s i).2 (hn.there _ _ e)) (lookup_none_iff.1 e' i)
  | none =>
    refine lookup_none_iff.2 fun i hi => ?_
    have := hn.back _ _ ((hmem s i).1 hi)
    rw [e] at this
    cases this

/-! ## The property -/

/-- Run operations one after the other, and collect their answers; the run stops at a failure. -/
def runOps (H : Hashes) : Store → List Op → List (Option Nat)
  | _, [] => []
  | st, o :: os =>
    match o.run H st with
    | none => [none]
    | some (st', i) => some i :: runOps H st' os

theorem runOps_same : ∀ (os : List Op) (a b : Store), Same a b → runOps H b os = runOps H a os
  | [], _, _, _ => rfl
  | o :: os, a, b, h => by
    unfold runOps
    rcases op_same (H := H) h o with ⟨e1, e2⟩ | ⟨a', b', i, e1, e2, h'⟩
    · rw [e1, e2]
    · rw [e1, e2]
      simp only [runOps_same os a' b' h']

/-- **C67.** For every store that a program can build, with every fingerprint function: restoring its
snapshot does not panic; every type, shape, object, signature and name reads the same in the restored
store; types compare the same; and every sequence of further operations gets the same answers. -/
theorem C67_store {st : Store} (h : Reachable H st) :
    ∃ st', st.snapshot.restore = some st' ∧
      (∀ i, st'.kind? i = st.kind? i) ∧ (∀ i, st'.shapes.lookup i = st.shapes.lookup i) ∧
      (∀ i, st'.objects.lookup i = st.objects.lookup i) ∧ (∀ i, st'.sigs.lookup i = st.sigs.lookup i) ∧
      (∀ i, st'.names.byId.lookup i = st.names.byId.lookup i) ∧ st'.prims = st.prims ∧
      (∀ a b, st'.typeCmp a b = st.typeCmp a b) ∧
      ∀ os : List Op, runOps H st' os = runOps H st os := by
  have hi := (reachable_inv h).core
  obtain ⟨m1, e1, l1, n1⟩ := restoreMap_spec hi.types.nodup
  obtain ⟨m2, e2, l2, _⟩ := restoreMap_spec hi.shapes.nodup
  obtain ⟨m3, e3, l3, _⟩ := restoreMap_spec hi.objects.nodup
  obtain ⟨m4, e4, l4, _⟩ := restoreMap_spec hi.sigs.nodup
  obtain ⟨l5, l6⟩ := restoreNames_spec hi.names
  have hs : Same st ⟨m1, m2, m3, m4, restoreNames st.snapshot.names, st.prims⟩ :=
    ⟨l1, n1, l2, l3, l4, l5, l6, rfl⟩
  refine ⟨⟨m1, m2, m3, m4, restoreNames st.snapshot.names, st.prims⟩, ?_, l1, l2, l3, l4, l5, rfl, ?_, ?_⟩
  · unfold Snapshot.restore Store.snapshot
    simp only [e1, e2, e3, e4]
  · intro a b; rw [hs.typeCmp]
  · intro os; exact runOps_same os _ _ hs

/-- **C67.** The order in which entries are stored does not matter either: a snapshot depends only on
what identifiers denote. -/
theorem C67_deterministic {H' : Hashes} {a b : Store} (ha : Reachable H a) (hb : Reachable H' b)
    (h : Same a b) : b.snapshot = a.snapshot := by
  have hsnap : ∀ {V : Type} (m m' : List (Nat × V)), (m.map Prod.fst).Nodup → (m'.map Prod.fst).Nodup →
      (∀ i, m'.lookup i = m.lookup i) →
      snapshotMap (fun a b : Nat => compare a b) m' = snapshotMap (fun a b : Nat => compare a b) m := by
    intro V m m' hm hm' hl
    have hp : m'.Perm m := by
      have nd : ∀ {l : List (Nat × V)}, (l.map Prod.fst).Nodup → l.Nodup := fun h =>
        List.Pairwise.of_map Prod.fst (fun _ _ e e' => e (by rw [e'])) h
      refine (List.perm_ext_iff_of_nodup (nd hm') (nd hm)).2 fun ⟨i, v⟩ => ?_
      constructor
      · intro hx; have := lookup_of_mem hm' hx; rw [hl] at this; exact mem_of_lookup this
      · intro hx; have := lookup_of_mem hm hx; rw [← hl] at this; exact mem_of_lookup this
    unfold snapshotMap
    refine sortBy_perm_eq (tp_on tp_nat Prod.fst) hp ?_
    intro x hx y hy e
    have e : x.1 = y.1 := Nat.compare_eq_eq.1 e
    obtain ⟨x1, x2⟩ := x
    obtain ⟨y1, y2⟩ := y
    simp only at e
    subst e
    have h1 := lookup_of_mem hm' hx
    have h2 := lookup_of_mem hm' hy
    rw [h1] at h2
    rw [Option.some.inj h2]
  have hi := (reachable_inv ha).core
  have hj := (reachable_inv hb).core
  unfold Store.snapshot
  rw [hsnap _ _ hi.types.nodup hj.types.nodup h.types, hsnap _ _ hi.shapes.nodup hj.shapes.nodup h.shapes,
    hsnap _ _ hi.objects.nodup hj.objects.nodup h.objects, hsnap _ _ hi.sigs.nodup hj.sigs.nodup h.sigs,
    hsnap _ _ hi.names.nodup hj.names.nodup h.byId, h.prims]

/-- **C48.** The store never refers to something that is not in it: reading what a type, shape, object
or signature mentions cannot panic. -/
theorem C48_closed {st : Store} (h : Reachable H st) :
    (∀ t k, st.kind? t = some k → KindKnown st k) ∧
    (∀ i s, st.sigs.lookup i = some s → TypesKnown st (sigTypes s)) ∧
    (∀ i s, st.shapes.lookup i = some s → ShapeKnown st s) ∧
    ∀ i s, st.objects.lookup i = some s → (st.shapes.lookup s).isSome := by
  obtain ⟨r, hc⟩ := (reachable_inv h).core.closed
  exact ⟨fun t k e => (hc.types t k e).1, hc.sigs, hc.shapes, hc.objects⟩

example : Reachable hashes w3 := reach_w3

/-- Restoring a store with colliding fingerprints, and interning a union and an array afterwards. -/
example : ∃ st', w3.snapshot.restore = some st' ∧
    runOps hashes st' [.union [6, 0], .type (.array 6 true)] =
      runOps hashes w3 [.union [6, 0], .type (.array 6 true)] ∧
    runOps hashes w3 [.union [6, 0], .type (.array 6 true)] = [some 0, some 16] := by
  obtain ⟨st', h1, _, _, _, _, _, _, _, h2⟩ := C67_store reach_w3
  exact ⟨st', h1, h2 _, by decide +kernel⟩

end Verif.Types
