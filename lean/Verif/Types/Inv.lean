import Verif.Types.Sort
/-!
# The invariant of the type store, and what `canon` does under it: nothing
-/

namespace Verif.Types
open Store
open Verif.Harness

/-- Members that `union` collects as they are. -/
def PlainU (k : Kind) : Prop := k ≠ .any ∧ k ≠ .unknown ∧ k ≠ .never ∧ ∀ ms, k ≠ .union ms

/-- Members that `intersection` collects as they are. -/
def PlainI (k : Kind) : Prop := k ≠ .any ∧ k ≠ .unknown ∧ k ≠ .never ∧ ∀ ms, k ≠ .inter ms

/-- Member lists of stored unions. -/
structure CanonU (st : Store) (ms : List Nat) : Prop where
  two : 2 ≤ ms.length
  sorted : ms.Pairwise (fun a b => st.typeCmp a b = .lt)
  known : TypesKnown st ms
  plain : ∀ m ∈ ms, PlainU (st.kind m)
  keeps : ∀ m ∈ ms, st.unionKeeps ms m = true
  notBool : ∀ a b, ms = [a, b] → (st.isBoolLit a && st.isBoolLit b) = false

/-- Member lists of stored intersections. -/
structure CanonI (st : Store) (ms : List Nat) : Prop where
  two : 2 ≤ ms.length
  sorted : ms.Pairwise (fun a b => st.typeCmp a b = .lt)
  known : TypesKnown st ms
  plain : ∀ m ∈ ms, PlainI (st.kind m)
  keeps : ∀ m ∈ ms, st.interKeeps ms m = true
  scan : (ms.foldlM st.scanStep ⟨0, none, none, none, none⟩).isSome

/-- The invariant, without the primitive types. -/
structure Core (H : Hashes) (st : Store) : Prop where
  types : MapOk H.type st.types
  shapes : MapOk H.shape st.shapes
  objects : MapOk H.object st.objects
  sigs : MapOk H.sig st.sigs
  names : NamesOk st.names
  closed : ∃ r, Closed st r
  unions : ∀ (t : Nat) (ms : List Nat), st.kind? t = some (.union ms) → CanonU st ms
  inters : ∀ (t : Nat) (ms : List Nat), st.kind? t = some (.inter ms) → CanonI st ms

/-- The primitive types are what their names say. -/
structure PrimsOk (st : Store) : Prop where
  any : st.kind? st.prims.any = some .any
  unknown : st.kind? st.prims.unknown = some .unknown
  never : st.kind? st.prims.never = some .never
  boolean : st.kind? st.prims.boolean = some .boolean
  number : st.kind? st.prims.number = some .number
  string : st.kind? st.prims.string = some .string
  bigint : st.kind? st.prims.bigint = some .bigint

theorem PrimsOk.mono {st st' : Store} (h : PrimsOk st) (hle : Le st st') : PrimsOk st' := by
  constructor <;> rw [hle.prims]
  · exact hle.kind? h.any
  · exact hle.kind? h.unknown
  · exact hle.kind? h.never
  · exact hle.kind? h.boolean
  · exact hle.kind? h.number
  · exact hle.kind? h.string
  · exact hle.kind? h.bigint

theorem TypesKnown.mono {st st' : Store} {ts : List Nat} (h : TypesKnown st ts) (hle : Le st st') :
    TypesKnown st' ts := fun t ht => hle.known (h t ht)

theorem SigsKnown.mono {st st' : Store} {ts : List Nat} (h : SigsKnown st ts) (hle : Le st st') :
    SigsKnown st' ts := fun t ht => isSome_ext hle.sigs (h t ht)

theorem KindKnown.mono {st st' : Store} {k : Kind} (h : KindKnown st k) (hle : Le st st') :
    KindKnown st' k :=
  ⟨h.types.mono hle, fun o ho => isSome_ext hle.objects (h.object o ho),
    fun ss hs => (h.sigs ss hs).mono hle, fun n hn => isSome_ext hle.names (h.name n hn)⟩

theorem KeyKnown.mono {st st' : Store} {k : PropKey} (h : KeyKnown st k) (hle : Le st st') :
    KeyKnown st' k := by
  cases k with
  | string n => exact isSome_ext hle.names h
  | number i => trivial
  | symbol n => exact isSome_ext hle.names h

theorem ShapeKnown.mono {st st' : Store} {s : Shape} (h : ShapeKnown st s) (hle : Le st st') :
    ShapeKnown st' s :=
  ⟨h.types.mono hle, h.sigs.mono hle, fun p hp => (h.keys p hp).mono hle⟩

/-! ## Member lists keep their properties -/

theorem any_congr {α : Type} {p q : α → Bool} {l : List α} (h : ∀ x ∈ l, p x = q x) :
    l.any p = l.any q := by
  induction l with
  | nil => rfl
  | cons a l ih =>
    rw [List.any_cons, List.any_cons, h a (List.mem_cons_self ..),
      ih fun x hx => h x (List.mem_cons_of_mem _ hx)]

section
variable {st st' : Store}

theorem hasKind_mono (hle : Le st st') {ms : List Nat} (hk : TypesKnown st ms) (k : Kind) :
    st'.hasKind k ms = st.hasKind k ms := by
  unfold Store.hasKind
  exact any_congr fun x hx => by rw [hle.kind (hk x hx)]

theorem hasLit_mono (hle : Le st st') {ms : List Nat} (hk : TypesKnown st ms) (p : Kind → Bool) :
    st'.hasLit p ms = st.hasLit p ms := by
  unfold Store.hasLit
  exact any_congr fun x hx => by rw [hle.kind (hk x hx)]

theorem unionKeeps_mono (hle : Le st st') {ms : List Nat} (hk : TypesKnown st ms) {m : Nat}
    (hm : (st.kind? m).isSome) : st'.unionKeeps ms m = st.unionKeeps ms m := by
  unfold Store.unionKeeps
  rw [hle.kind hm]
  simp only [hasKind_mono hle hk]

theorem interKeeps_mono (hle : Le st st') {ms : List Nat} (hk : TypesKnown st ms) {m : Nat}
    (hm : (st.kind? m).isSome) : st'.interKeeps ms m = st.interKeeps ms m := by
  unfold Store.interKeeps
  rw [hle.kind hm]
  simp only [hasLit_mono hle hk]

theorem isBoolLit_mono (hle : Le st st') {m : Nat} (hm : (st.kind? m).isSome) :
    st'.isBoolLit m = st.isBoolLit m := by
  unfold Store.isBoolLit; rw [hle.kind hm]

theorem scan_mono (hle : Le st st') : ∀ {ms : List Nat}, TypesKnown st ms → ∀ s : Scan,
    ms.foldlM st'.scanStep s = ms.foldlM st.scanStep s
  | [], _, _ => rfl
  | m :: ms, hk, s => by
    rw [List.foldlM_cons, List.foldlM_cons]
    have e : st'.scanStep s m = st.scanStep s m := by
      unfold Store.scanStep; rw [hle.kind (hk m (List.mem_cons_self ..))]
    rw [e]
    cases st.scanStep s m with
    | none => rfl
    | some s' => exact scan_mono hle (fun x hx => hk x (List.mem_cons_of_mem _ hx)) s'

theorem sorted_mono {r : Nat → Nat} (hle : Le st st') (hc : Closed st r) {ms : List Nat}
    (hk : TypesKnown st ms) (h : ms.Pairwise (fun a b => st.typeCmp a b = .lt)) :
    ms.Pairwise (fun a b => st'.typeCmp a b = .lt) :=
  List.Pairwise.imp_of_mem (fun ha hb e => by rw [typeCmp_mono hle hc (hk _ ha) (hk _ hb)]; exact e) h

theorem CanonU.mono {r : Nat → Nat} {ms : List Nat} (h : CanonU st ms) (hle : Le st st')
    (hc : Closed st r) : CanonU st' ms where
  two := h.two
  sorted := sorted_mono hle hc h.known h.sorted
  known := h.known.mono hle
  plain m hm := by rw [hle.kind (h.known m hm)]; exact h.plain m hm
  keeps m hm := by rw [unionKeeps_mono hle h.known (h.known m hm)]; exact h.keeps m hm
  notBool a b e := by
    rw [isBoolLit_mono hle (h.known a (by simp [e])), isBoolLit_mono hle (h.known b (by simp [e]))]
    exact h.notBool a b e

theorem CanonI.mono {r : Nat → Nat} {ms : List Nat} (h : CanonI st ms) (hle : Le st st')
    (hc : Closed st r) : CanonI st' ms where
  two := h.two
  sorted := sorted_mono hle hc h.known h.sorted
  known := h.known.mono hle
  plain m hm := by rw [hle.kind (h.known m hm)]; exact h.plain m hm
  keeps m hm := by rw [interKeeps_mono hle h.known (h.known m hm)]; exact h.keeps m hm
  scan := by rw [scan_mono hle h.known]; exact h.scan

end

/-! ## Adding one entry -/

theorem insertType_spec {H : Hashes} {st st' : Store} {k : Kind} {i : Nat} (hi : Core H st)
    (hk : KindKnown st k) (hu : ∀ ms, k = .union ms → CanonU st ms)
    (hn : ∀ ms, k = .inter ms → CanonI st ms) (h : st.insertType H k = some (st', i)) :
    Core H st' ∧ Le st st' ∧ st'.kind? i = some k := by
  unfold Store.insertType at h
  split at h
  · cases h
  · rename_i m j e
    simp only [Option.some.injEq, Prod.mk.injEq] at h
    obtain ⟨rfl, rfl⟩ := h
    obtain ⟨hx, hm, hl, hor⟩ := insert_spec hi.types e
    rcases hor with rfl | ⟨hnone, rfl⟩
    · exact ⟨hi, Le.refl _, hl⟩
    · obtain ⟨r, hc⟩ := hi.closed
      have hle : Le st { st with types := (j, k) :: st.types } :=
        ⟨hx, Ext.refl _, Ext.refl _, Ext.refl _, Ext.refl _, rfl, by simp⟩
      have hrk : ∀ t, (st.kind? t).isSome → t ≠ j := by
        rintro t ht rfl
        unfold Store.kind? at ht
        rw [hnone] at ht; cases ht
      have hsplit : ∀ (t : Nat) (k' : Kind),
          ({ st with types := (j, k) :: st.types } : Store).kind? t = some k' →
          (t = j ∧ k' = k) ∨ (t ≠ j ∧ st.kind? t = some k') := by
        intro t k' ht
        unfold Store.kind? at ht
        simp only [List.lookup_cons] at ht
        by_cases etj : t = j
        · subst etj
          simp only [beq_self_eq_true, Option.some.injEq] at ht
          exact .inl ⟨rfl, ht.symm⟩
        · rw [show (t == j) = false by simpa using etj] at ht
          exact .inr ⟨etj, ht⟩
      refine ⟨⟨hm, hi.shapes, hi.objects, hi.sigs, hi.names, ?_, ?_, ?_⟩, hle, hl⟩
      · have hr : ∀ t, (st.kind? t).isSome → (if t = j then st.types.length else r t) = r t :=
          fun t ht => by rw [if_neg (hrk t ht)]
        refine ⟨fun t => if t = j then st.types.length else r t, ?_, ?_, ?_, ?_, ?_, ?_, ?_⟩
        · intro t k' ht
          rcases hsplit t k' ht with ⟨rfl, rfl⟩ | ⟨hne, ht⟩
          · exact ⟨hk.mono hle, by simp⟩
          · refine ⟨((hc.types t k' ht).1).mono hle, ?_⟩
            show (if t = j then _ else _) < _
            rw [if_neg hne]
            have := (hc.types t k' ht).2
            simp only [List.length_cons]; omega
        · exact fun i s hs => (hc.sigs i s hs).mono hle
        · exact fun i s hs => (hc.shapes i s hs).mono hle
        · exact hc.objects
        · intro t k' ht c hc'
          rcases hsplit t k' ht with ⟨rfl, rfl⟩ | ⟨hne, ht⟩
          · show (if c = t then _ else _) < (if t = t then _ else _)
            rw [hr c (hk.types c hc'), if_pos rfl]
            exact hc.lt (hk.types c hc')
          · show (if c = j then _ else _) < (if t = j then _ else _)
            rw [hr c ((hc.types t k' ht).1.types c hc'), if_neg hne]
            exact hc.rank t k' ht c hc'
        · intro t o ht
          rcases hsplit t _ ht with ⟨rfl, rfl⟩ | ⟨hne, ht⟩
          · have hs := shape_known hc (hk.object o rfl)
            constructor
            · intro c hc'
              show (if c = t then _ else _) < (if t = t then _ else _)
              rw [hr c (hs.types c hc'), if_pos rfl]
              exact hc.lt (hs.types c hc')
            · intro s hs' c hc'
              show (if c = t then _ else _) < (if t = t then _ else _)
              rw [hr c (sig_known hc (hs.sigs s hs') c hc'), if_pos rfl]
              exact hc.lt (sig_known hc (hs.sigs s hs') c hc')
          · have hs := shape_known hc ((hc.types t _ ht).1.object o rfl)
            constructor
            · intro c hc'
              show (if c = j then _ else _) < (if t = j then _ else _)
              rw [hr c (hs.types c hc'), if_neg hne]
              exact (hc.rankObj t o ht).1 c hc'
            · intro s hs' c hc'
              show (if c = j then _ else _) < (if t = j then _ else _)
              rw [hr c (sig_known hc (hs.sigs s hs') c hc'), if_neg hne]
              exact (hc.rankObj t o ht).2 s hs' c hc'
        · intro t ss ht s hs c hc'
          rcases hsplit t _ ht with ⟨rfl, rfl⟩ | ⟨hne, ht⟩
          · show (if c = t then _ else _) < (if t = t then _ else _)
            rw [hr c (sig_known hc (hk.sigs ss rfl s hs) c hc'), if_pos rfl]
            exact hc.lt (sig_known hc (hk.sigs ss rfl s hs) c hc')
          · show (if c = j then _ else _) < (if t = j then _ else _)
            rw [hr c (sig_known hc ((hc.types t _ ht).1.sigs ss rfl s hs) c hc'), if_neg hne]
            exact hc.rankCall t ss ht s hs c hc'
      · intro t ms ht
        rcases hsplit t _ ht with ⟨rfl, hk'⟩ | ⟨hne, ht⟩
        · exact (hu ms hk'.symm).mono hle hc
        · exact (hi.unions t ms ht).mono hle hc
      · intro t ms ht
        rcases hsplit t _ ht with ⟨rfl, hk'⟩ | ⟨hne, ht⟩
        · exact (hn ms hk'.symm).mono hle hc
        · exact (hi.inters t ms ht).mono hle hc

theorem insertType_present {H : Hashes} {st : Store} {k : Kind} {t : Nat} (hi : Core H st)
    (h : st.kind? t = some k) : st.insertType H k = some (st, t) := by
  unfold Store.insertType
  rw [insert_present hi.types h]

/-! ## `canon` does nothing -/

/-- What a member contributes to a union. -/
def uParts (st : Store) (m : Nat) : List Nat :=
  match st.kind m with
  | .any => []
  | .unknown => []
  | .never => []
  | .union inner => inner
  | _ => [m]

/-- What a member contributes to an intersection. -/
def iParts (st : Store) (m : Nat) : List Nat :=
  match st.kind m with
  | .any => []
  | .unknown => []
  | .never => []
  | .inter inner => inner
  | _ => [m]

theorem unionScan_eq {canon : Canon} {st : Store} : ∀ (ms flat : List Nat) (u : Bool),
    TypesKnown st ms → (∀ m ∈ ms, canon st m = some (st, m)) →
    unionScan canon st ms flat u =
      some (st, if st.hasKind .any ms then none
        else some (flat ++ ms.flatMap (uParts st), u || st.hasKind .unknown ms))
  | [], flat, u, _, _ => by simp [unionScan, Store.hasKind]
  | m :: ms, flat, u, hk, hcan => by
    have ih := fun f b => unionScan_eq (canon := canon) (st := st) ms f b
      (fun x hx => hk x (List.mem_cons_of_mem _ hx)) (fun x hx => hcan x (List.mem_cons_of_mem _ hx))
    unfold unionScan
    rw [hcan m (List.mem_cons_self ..)]
    simp only
    have hkm := kind?_of_known (hk m (List.mem_cons_self ..))
    rw [hkm]
    have e1 : ∀ k, st.hasKind k (m :: ms) = (decide (st.kind m = k) || st.hasKind k ms) := by
      intro k; simp [Store.hasKind, beq_eq_decide]
    rw [e1, e1, List.flatMap_cons]
    cases hkd : st.kind m <;> simp [ih, uParts, hkd]

theorem interScan_eq {canon : Canon} {st : Store} : ∀ (ms flat : List Nat) (u : Bool),
    TypesKnown st ms → (∀ m ∈ ms, canon st m = some (st, m)) →
    interScan canon st ms flat u =
      some (st, if st.hasKind .never ms then none
        else some (flat ++ ms.flatMap (iParts st), u || st.hasKind .any ms))
  | [], flat, u, _, _ => by simp [interScan, Store.hasKind]
  | m :: ms, flat, u, hk, hcan => by
    have ih := fun f b => interScan_eq (canon := canon) (st := st) ms f b
      (fun x hx => hk x (List.mem_cons_of_mem _ hx)) (fun x hx => hcan x (List.mem_cons_of_mem _ hx))
    unfold interScan
    rw [hcan m (List.mem_cons_self ..)]
    simp only
    have hkm := kind?_of_known (hk m (List.mem_cons_self ..))
    rw [hkm]
    have e1 : ∀ k, st.hasKind k (m :: ms) = (decide (st.kind m = k) || st.hasKind k ms) := by
      intro k; simp [Store.hasKind, beq_eq_decide]
    rw [e1, e1, List.flatMap_cons]
    cases hkd : st.kind m <;> simp [ih, iParts, hkd]

/-- `union` without `canon`. -/
def unionOf (H : Hashes) (st : Store) (ms : List Nat) : Option (Store × Nat) :=
  if st.hasKind .any ms then some (st, st.prims.any)
  else if st.hasKind .unknown ms then some (st, st.prims.unknown)
  else unionFinish H st (ms.flatMap (uParts st))

/-- `intersection` without `canon`. -/
def interOf (H : Hashes) (st : Store) (ms : List Nat) : Option (Store × Nat) :=
  if st.hasKind .never ms then some (st, st.prims.never)
  else if st.hasKind .any ms then some (st, st.prims.any)
  else interFinish H st (ms.flatMap (iParts st))

theorem unionWith_eq {H : Hashes} {canon : Canon} {st : Store} {ms : List Nat} (hk : TypesKnown st ms)
    (hcan : ∀ m ∈ ms, canon st m = some (st, m)) : unionWith H canon st ms = unionOf H st ms := by
  unfold unionWith unionOf
  rw [unionScan_eq ms [] false hk hcan]
  by_cases h : st.hasKind .any ms
  · simp [h]
  · simp [h]

theorem interWith_eq {H : Hashes} {canon : Canon} {st : Store} {ms : List Nat} (hk : TypesKnown st ms)
    (hcan : ∀ m ∈ ms, canon st m = some (st, m)) : interWith H canon st ms = interOf H st ms := by
  unfold interWith interOf
  rw [interScan_eq ms [] false hk hcan]
  by_cases h : st.hasKind .never ms
  · simp [h]
  · simp [h]

theorem uParts_plain {st : Store} {m : Nat} (h : PlainU (st.kind m)) : uParts st m = [m] := by
  unfold uParts
  obtain ⟨h1, h2, h3, h4⟩ := h
  split
  · exact absurd ‹_› h1
  · exact absurd ‹_› h2
  · exact absurd ‹_› h3
  · exact absurd ‹_› (h4 _)
  · rfl

theorem iParts_plain {st : Store} {m : Nat} (h : PlainI (st.kind m)) : iParts st m = [m] := by
  unfold iParts
  obtain ⟨h1, h2, h3, h4⟩ := h
  split
  · exact absurd ‹_› h1
  · exact absurd ‹_› h2
  · exact absurd ‹_› h3
  · exact absurd ‹_› (h4 _)
  · rfl

theorem flatMap_single {f : Nat → List Nat} : ∀ {ms : List Nat}, (∀ m ∈ ms, f m = [m]) →
    ms.flatMap f = ms
  | [], _ => rfl
  | m :: ms, h => by
    rw [List.flatMap_cons, h m (List.mem_cons_self ..),
      flatMap_single fun x hx => h x (List.mem_cons_of_mem _ hx)]
    rfl

theorem hasKind_false {st : Store} {k : Kind} {ms : List Nat} (h : ∀ m ∈ ms, st.kind m ≠ k) :
    st.hasKind k ms = false := by
  unfold Store.hasKind
  rw [List.any_eq_false]
  intro m hm; simpa using h m hm

theorem unionFinish_canon {H : Hashes} {st : Store} {ms : List Nat} (hu : CanonU st ms) :
    unionFinish H st ms = st.insertType H (.union ms) := by
  unfold unionFinish
  rw [List.filter_eq_self.2 hu.keeps, sortDedup_id hu.sorted]
  have h2 := hu.two
  match ms, hu with
  | [], _ => simp at h2
  | [_], _ => simp at h2
  | [a, b], hu =>
    simp only
    rw [hu.notBool a b rfl]; simp
  | a :: b :: c :: l, _ => rfl

theorem interFinish_canon {H : Hashes} {st : Store} {ms : List Nat} (hu : CanonI st ms) :
    interFinish H st ms = st.insertType H (.inter ms) := by
  unfold interFinish
  rw [List.filter_eq_self.2 hu.keeps]
  have h2 := hu.two
  match ms, hu with
  | [], _ => simp at h2
  | [_], _ => simp at h2
  | a :: b :: l, hu =>
    simp only
    rw [sortDedup_id hu.sorted]
    simp only
    obtain ⟨s, hs⟩ := Option.isSome_iff_exists.1 hu.scan
    rw [hs]

theorem unionOf_canon {H : Hashes} {st : Store} {ms : List Nat} (hu : CanonU st ms) :
    unionOf H st ms = st.insertType H (.union ms) := by
  unfold unionOf
  rw [hasKind_false fun m hm => (hu.plain m hm).1, hasKind_false fun m hm => (hu.plain m hm).2.1,
    flatMap_single fun m hm => uParts_plain (hu.plain m hm)]
  simpa using unionFinish_canon hu

theorem interOf_canon {H : Hashes} {st : Store} {ms : List Nat} (hu : CanonI st ms) :
    interOf H st ms = st.insertType H (.inter ms) := by
  unfold interOf
  rw [hasKind_false fun m hm => (hu.plain m hm).2.2.1, hasKind_false fun m hm => (hu.plain m hm).1,
    flatMap_single fun m hm => iParts_plain (hu.plain m hm)]
  simpa using interFinish_canon hu

theorem canonN_id {H : Hashes} {st : Store} {r : Nat → Nat} (hi : Core H st) (hc : Closed st r) :
    ∀ (n t : Nat), (st.kind? t).isSome → r t < n → canonN H n st t = some (st, t)
  | 0, _, _, h => absurd h (Nat.not_lt_zero _)
  | n + 1, t, ht, hn => by
    have hkt := kind?_of_known ht
    have ih : ∀ m ∈ kindTypes (st.kind t), canonN H n st m = some (st, m) := by
      intro m hm
      refine canonN_id hi hc n m ((hc.types t _ hkt).1.types m hm) ?_
      have := hc.rank t _ hkt m hm
      omega
    unfold canonN
    rw [hkt]
    cases hk : st.kind t with
    | union ms =>
      rw [hk] at hkt ih
      simp only
      have hu := hi.unions t ms hkt
      rw [unionWith_eq hu.known ih, unionOf_canon hu, insertType_present hi hkt]
    | inter ms =>
      rw [hk] at hkt ih
      simp only
      have hu := hi.inters t ms hkt
      rw [interWith_eq hu.known ih, interOf_canon hu, insertType_present hi hkt]
    | _ => rfl

theorem canon_id {H : Hashes} {st : Store} (hi : Core H st) {t : Nat} (ht : (st.kind? t).isSome) :
    st.canon H t = some (st, t) := by
  obtain ⟨r, hc⟩ := hi.closed
  exact canonN_id hi hc _ t ht (Nat.lt_succ_of_lt (hc.lt ht))

theorem union_eq {H : Hashes} {st : Store} {ms : List Nat} (hi : Core H st) (hk : TypesKnown st ms) :
    st.union H ms = unionOf H st ms :=
  unionWith_eq hk fun m hm => canon_id hi (hk m hm)

theorem inter_eq {H : Hashes} {st : Store} {ms : List Nat} (hi : Core H st) (hk : TypesKnown st ms) :
    st.intersection H ms = interOf H st ms :=
  interWith_eq hk fun m hm => canon_id hi (hk m hm)

theorem canonList_id {H : Hashes} {st : Store} (hi : Core H st) : ∀ {ts : List Nat}, TypesKnown st ts →
    st.canonList H ts = some (st, ts)
  | [], _ => rfl
  | t :: ts, hk => by
    unfold Store.canonList
    rw [canon_id hi (hk t (List.mem_cons_self ..))]
    simp only
    rw [canonList_id hi fun x hx => hk x (List.mem_cons_of_mem _ hx)]

end Verif.Types
