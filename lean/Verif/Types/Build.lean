import Verif.Types.Inv
/-!
# Every operation keeps the invariant
-/

namespace Verif.Types
open Store
open Verif.Harness

/-- The whole invariant. -/
structure Inv (H : Hashes) (st : Store) : Prop where
  core : Core H st
  prims : PrimsOk st

/-! ## Unions and intersections -/

theorem hasKind_iff {st : Store} {k : Kind} {ms : List Nat} :
    st.hasKind k ms = true ↔ ∃ m ∈ ms, st.kind m = k := by
  simp [Store.hasKind]

theorem hasLit_iff {st : Store} {p : Kind → Bool} {ms : List Nat} :
    st.hasLit p ms = true ↔ ∃ m ∈ ms, p (st.kind m) = true := by
  simp [Store.hasLit]

theorem hasKind_sub {st : Store} {k : Kind} {l l' : List Nat} (h : ∀ x ∈ l', x ∈ l)
    (hk : st.hasKind k l = false) : st.hasKind k l' = false := by
  cases e : st.hasKind k l' with
  | false => rfl
  | true =>
    obtain ⟨m, hm, hkm⟩ := hasKind_iff.1 e
    rw [hasKind_iff.2 ⟨m, h m hm, hkm⟩] at hk; cases hk

theorem hasLit_sub {st : Store} {k : Kind → Bool} {l l' : List Nat} (h : ∀ x ∈ l', x ∈ l)
    (hk : st.hasLit k l = false) : st.hasLit k l' = false := by
  cases e : st.hasLit k l' with
  | false => rfl
  | true =>
    obtain ⟨m, hm, hkm⟩ := hasLit_iff.1 e
    rw [hasLit_iff.2 ⟨m, h m hm, hkm⟩] at hk; cases hk

theorem unionKeeps_sub {st : Store} {l l' : List Nat} (h : ∀ x ∈ l', x ∈ l) {m : Nat}
    (hk : st.unionKeeps l m = true) : st.unionKeeps l' m = true := by
  unfold Store.unionKeeps at hk ⊢
  cases hm : st.kind m <;> simp only [hm, Bool.not_eq_true'] at hk ⊢
  all_goals exact hasKind_sub h hk

theorem interKeeps_sub {st : Store} {l l' : List Nat} (h : ∀ x ∈ l', x ∈ l) {m : Nat}
    (hk : st.interKeeps l m = true) : st.interKeeps l' m = true := by
  unfold Store.interKeeps at hk ⊢
  cases hm : st.kind m <;> simp only [hm, Bool.not_eq_true', Bool.and_eq_true] at hk ⊢
  case string => exact ⟨hasLit_sub h hk.1, hasLit_sub h hk.2⟩
  all_goals exact hasLit_sub h hk

theorem unionKeeps_congr {st : Store} {l l' : List Nat} (h : ∀ x, x ∈ l' ↔ x ∈ l) (m : Nat) :
    st.unionKeeps l' m = st.unionKeeps l m :=
  Bool.eq_iff_iff.2 ⟨unionKeeps_sub fun x hx => (h x).2 hx, unionKeeps_sub fun x hx => (h x).1 hx⟩

theorem interKeeps_congr {st : Store} {l l' : List Nat} (h : ∀ x, x ∈ l' ↔ x ∈ l) (m : Nat) :
    st.interKeeps l' m = st.interKeeps l m :=
  Bool.eq_iff_iff.2 ⟨interKeeps_sub fun x hx => (h x).2 hx, interKeeps_sub fun x hx => (h x).1 hx⟩

theorem uParts_spec {H : Hashes} {st : Store} (hi : Core H st) {m c : Nat} (hm : (st.kind? m).isSome)
    (hc : c ∈ uParts st m) : (st.kind? c).isSome ∧ PlainU (st.kind c) := by
  have hkm := kind?_of_known hm
  unfold uParts at hc
  cases hk : st.kind m <;> rw [hk] at hkm <;> simp only [hk, List.not_mem_nil] at hc
  case union inner => exact ⟨(hi.unions m _ hkm).known c hc, (hi.unions m _ hkm).plain c hc⟩
  all_goals
    simp only [List.mem_singleton] at hc
    subst hc
    refine ⟨hm, ?_⟩
    rw [hk]
    exact ⟨by simp, by simp, by simp, by simp⟩

theorem iParts_spec {H : Hashes} {st : Store} (hi : Core H st) {m c : Nat} (hm : (st.kind? m).isSome)
    (hc : c ∈ iParts st m) : (st.kind? c).isSome ∧ PlainI (st.kind c) := by
  have hkm := kind?_of_known hm
  unfold iParts at hc
  cases hk : st.kind m <;> rw [hk] at hkm <;> simp only [hk, List.not_mem_nil] at hc
  case inter inner => exact ⟨(hi.inters m _ hkm).known c hc, (hi.inters m _ hkm).plain c hc⟩
  all_goals
    simp only [List.mem_singleton] at hc
    subst hc
    refine ⟨hm, ?_⟩
    rw [hk]
    exact ⟨by simp, by simp, by simp, by simp⟩

theorem mem_kept {st : Store} {p : Nat → Bool} {flat : List Nat} {x : Nat} :
    x ∈ st.sortDedup (flat.filter p) ↔ x ∈ flat ∧ p x = true := by
  rw [mem_sortDedup, List.mem_filter]

/-- The member list that `union` interns. -/
theorem canonU_kept {st : Store} {flat : List Nat} (hk : TypesKnown st flat)
    (hp : ∀ m ∈ flat, PlainU (st.kind m))
    (h2 : 2 ≤ (st.sortDedup (flat.filter (st.unionKeeps flat))).length)
    (hb : ∀ a b, st.sortDedup (flat.filter (st.unionKeeps flat)) = [a, b] →
      (st.isBoolLit a && st.isBoolLit b) = false) :
    CanonU st (st.sortDedup (flat.filter (st.unionKeeps flat))) where
  two := h2
  sorted := sortDedup_sorted _ _
  known m hm := hk m (mem_kept.1 hm).1
  plain m hm := hp m (mem_kept.1 hm).1
  keeps _ hm := unionKeeps_sub (fun _ hx => (mem_kept.1 hx).1) (mem_kept.1 hm).2
  notBool := hb

theorem canonI_kept {st : Store} {flat : List Nat} (hk : TypesKnown st flat)
    (hp : ∀ m ∈ flat, PlainI (st.kind m))
    (h2 : 2 ≤ (st.sortDedup (flat.filter (st.interKeeps flat))).length)
    (hb : ((st.sortDedup (flat.filter (st.interKeeps flat))).foldlM st.scanStep
      ⟨0, none, none, none, none⟩).isSome) :
    CanonI st (st.sortDedup (flat.filter (st.interKeeps flat))) where
  two := h2
  sorted := sortDedup_sorted _ _
  known m hm := hk m (mem_kept.1 hm).1
  plain m hm := hp m (mem_kept.1 hm).1
  keeps _ hm := interKeeps_sub (fun _ hx => (mem_kept.1 hx).1) (mem_kept.1 hm).2
  scan := hb

/-- What the second half of `union` returns. -/
inductive UnionRes (H : Hashes) (st : Store) (l : List Nat) (st' : Store) (i : Nat) : Prop where
  | empty : l = [] → st' = st → i = st.prims.never → UnionRes H st l st' i
  | one (a : Nat) : l = [a] → st' = st → i = a → UnionRes H st l st' i
  | bool (a b : Nat) : l = [a, b] → st.isBoolLit a = true → st.isBoolLit b = true → st' = st →
      i = st.prims.boolean → UnionRes H st l st' i
  | many : CanonU st l → Core H st' → Le st st' → st'.kind? i = some (.union l) → UnionRes H st l st' i

theorem kindKnown_union {st : Store} {l : List Nat} (h : TypesKnown st l) : KindKnown st (.union l) :=
  ⟨h, fun _ h => (by cases h), fun _ h => (by cases h), fun _ h => (by cases h)⟩

theorem kindKnown_inter {st : Store} {l : List Nat} (h : TypesKnown st l) : KindKnown st (.inter l) :=
  ⟨h, fun _ h => (by cases h), fun _ h => (by cases h), fun _ h => (by cases h)⟩

theorem unionFinish_spec {H : Hashes} {st st' : Store} {flat : List Nat} {i : Nat} (hi : Core H st)
    (hk : TypesKnown st flat) (hp : ∀ m ∈ flat, PlainU (st.kind m))
    (h : unionFinish H st flat = some (st', i)) :
    UnionRes H st (st.sortDedup (flat.filter (st.unionKeeps flat))) st' i := by
  have hcan := canonU_kept hk hp
  unfold unionFinish at h
  generalize hl : st.sortDedup (flat.filter (st.unionKeeps flat)) = l at h hcan ⊢
  have fin : ∀ (hu : CanonU st l), st.insertType H (.union l) = some (st', i) →
      UnionRes H st l st' i := by
    intro hu hins
    obtain ⟨h1, h2, h3⟩ := insertType_spec hi (kindKnown_union hu.known)
      (fun ms e => by cases e; exact hu) (fun ms e => by cases e) hins
    exact .many hu h1 h2 h3
  split at h
  · simp only [Option.some.injEq, Prod.mk.injEq] at h
    exact .empty rfl h.1.symm h.2.symm
  · simp only [Option.some.injEq, Prod.mk.injEq] at h
    exact .one _ rfl h.1.symm h.2.symm
  · rename_i a b
    split at h
    · rename_i hb
      simp only [Bool.and_eq_true] at hb
      simp only [Option.some.injEq, Prod.mk.injEq] at h
      exact .bool a b rfl hb.1 hb.2 h.1.symm h.2.symm
    · rename_i hb
      refine fin (hcan (by simp) ?_) h
      intro a' b' e
      cases e
      simpa using hb
  · rename_i h1 h2 h3
    refine fin (hcan ?_ (fun a b e => absurd e (h3 a b))) h
    match l, h1, h2 with
    | [], h1, _ => exact absurd rfl h1
    | [a], _, h2 => exact absurd rfl (h2 a)
    | _ :: _ :: _, _, _ => simp

/-- What the second half of `intersection` returns. -/
inductive InterRes (H : Hashes) (st : Store) (l : List Nat) (st' : Store) (i : Nat) : Prop where
  | empty : l = [] → st' = st → i = st.prims.unknown → InterRes H st l st' i
  | one (a : Nat) : l = [a] → st' = st → i = a → InterRes H st l st' i
  | clash : 2 ≤ l.length → l.foldlM st.scanStep ⟨0, none, none, none, none⟩ = none → st' = st →
      i = st.prims.never → InterRes H st l st' i
  | many : CanonI st l → Core H st' → Le st st' → st'.kind? i = some (.inter l) → InterRes H st l st' i

theorem sortDedup_nil {st : Store} : st.sortDedup [] = [] := rfl

theorem interFinish_spec {H : Hashes} {st st' : Store} {flat : List Nat} {i : Nat} (hi : Core H st)
    (hk : TypesKnown st flat) (hp : ∀ m ∈ flat, PlainI (st.kind m))
    (h : interFinish H st flat = some (st', i)) :
    InterRes H st (st.sortDedup (flat.filter (st.interKeeps flat))) st' i := by
  have hcan := canonI_kept hk hp
  unfold interFinish at h
  split at h
  · rename_i e
    rw [e]
    simp only [Option.some.injEq, Prod.mk.injEq] at h
    exact .empty rfl h.1.symm h.2.symm
  · rename_i k ks e
    rw [e] at hcan ⊢
    have hne : k ∈ st.sortDedup (k :: ks) := mem_sortDedup.2 (List.mem_cons_self ..)
    generalize hl : st.sortDedup (k :: ks) = l at h hcan hne ⊢
    split at h
    · simp only [Option.some.injEq, Prod.mk.injEq] at h
      exact .one _ rfl h.1.symm h.2.symm
    · rename_i h1
      have h2 : 2 ≤ l.length := by
        match l, h1, hne with
        | [], _, hne => exact absurd hne List.not_mem_nil
        | [a], h1, _ => exact absurd rfl (h1 a)
        | _ :: _ :: _, _, _ => simp
      split at h
      · rename_i hs
        simp only [Option.some.injEq, Prod.mk.injEq] at h
        exact .clash h2 hs h.1.symm h.2.symm
      · rename_i s hs
        have hu := hcan h2 (by rw [hs]; rfl)
        obtain ⟨h1, h2, h3⟩ := insertType_spec hi (kindKnown_inter hu.known)
          (fun ms e => by cases e) (fun ms e => by cases e; exact hu) h
        exact .many hu h1 h2 h3

theorem flat_known {H : Hashes} {st : Store} {ms : List Nat} (hi : Core H st) (hk : TypesKnown st ms) :
    TypesKnown st (ms.flatMap (uParts st)) ∧ ∀ m ∈ ms.flatMap (uParts st), PlainU (st.kind m) := by
  constructor <;> intro c hc <;> obtain ⟨m, hm, hc⟩ := List.mem_flatMap.1 hc
  · exact (uParts_spec hi (hk m hm) hc).1
  · exact (uParts_spec hi (hk m hm) hc).2

theorem flatI_known {H : Hashes} {st : Store} {ms : List Nat} (hi : Core H st) (hk : TypesKnown st ms) :
    TypesKnown st (ms.flatMap (iParts st)) ∧ ∀ m ∈ ms.flatMap (iParts st), PlainI (st.kind m) := by
  constructor <;> intro c hc <;> obtain ⟨m, hm, hc⟩ := List.mem_flatMap.1 hc
  · exact (iParts_spec hi (hk m hm) hc).1
  · exact (iParts_spec hi (hk m hm) hc).2

/-- What an operation that returns a type does. -/
structure Ok (H : Hashes) (st st' : Store) (i : Nat) : Prop where
  inv : Inv H st'
  le : Le st st'
  known : (st'.kind? i).isSome

theorem Ok.same {H : Hashes} {st : Store} {i : Nat} (hi : Inv H st) (h : (st.kind? i).isSome) :
    Ok H st st i := ⟨hi, Le.refl _, h⟩

theorem union_ok {H : Hashes} {st st' : Store} {ms : List Nat} {i : Nat} (hi : Inv H st)
    (hk : TypesKnown st ms) (h : st.union H ms = some (st', i)) : Ok H st st' i := by
  rw [union_eq hi.core hk] at h
  unfold unionOf at h
  split at h
  · simp only [Option.some.injEq, Prod.mk.injEq] at h
    obtain ⟨rfl, rfl⟩ := h
    exact .same hi (by rw [hi.prims.any]; rfl)
  · split at h
    · simp only [Option.some.injEq, Prod.mk.injEq] at h
      obtain ⟨rfl, rfl⟩ := h
      exact .same hi (by rw [hi.prims.unknown]; rfl)
    · obtain ⟨hkf, hpf⟩ := flat_known hi.core hk
      cases unionFinish_spec hi.core hkf hpf h with
      | empty _ h1 h2 => subst h1 h2; exact .same hi (by rw [hi.prims.never]; rfl)
      | one a hl h1 h2 =>
        subst h1 h2
        exact .same hi (hkf _ (mem_kept.1 (hl ▸ List.mem_singleton_self _)).1)
      | bool a b _ _ _ h1 h2 => subst h1 h2; exact .same hi (by rw [hi.prims.boolean]; rfl)
      | many _ h1 h2 h3 => exact ⟨⟨h1, hi.prims.mono h2⟩, h2, by rw [h3]; rfl⟩

theorem inter_ok {H : Hashes} {st st' : Store} {ms : List Nat} {i : Nat} (hi : Inv H st)
    (hk : TypesKnown st ms) (h : st.intersection H ms = some (st', i)) : Ok H st st' i := by
  rw [inter_eq hi.core hk] at h
  unfold interOf at h
  split at h
  · simp only [Option.some.injEq, Prod.mk.injEq] at h
    obtain ⟨rfl, rfl⟩ := h
    exact .same hi (by rw [hi.prims.never]; rfl)
  · split at h
    · simp only [Option.some.injEq, Prod.mk.injEq] at h
      obtain ⟨rfl, rfl⟩ := h
      exact .same hi (by rw [hi.prims.any]; rfl)
    · obtain ⟨hkf, hpf⟩ := flatI_known hi.core hk
      cases interFinish_spec hi.core hkf hpf h with
      | empty _ h1 h2 => subst h1 h2; exact .same hi (by rw [hi.prims.unknown]; rfl)
      | one a hl h1 h2 =>
        subst h1 h2
        exact .same hi (hkf _ (mem_kept.1 (hl ▸ List.mem_singleton_self _)).1)
      | clash _ _ h1 h2 => subst h1 h2; exact .same hi (by rw [hi.prims.never]; rfl)
      | many _ h1 h2 h3 => exact ⟨⟨h1, hi.prims.mono h2⟩, h2, by rw [h3]; rfl⟩

/-! ## Putting canonical types back changes nothing -/

theorem zip_tuple : ∀ (es : List TupleElem),
    List.zipWith (fun (e : TupleElem) t => { e with ty := t }) es (es.map TupleElem.ty) = es
  | [] => rfl
  | e :: es => by rw [List.map_cons, List.zipWith_cons_cons, zip_tuple es]

theorem zip_chunk : ∀ (es : List TemplateChunk),
    List.zipWith (fun (e : TemplateChunk) t => { e with ty := t }) es (es.map TemplateChunk.ty) = es
  | [] => rfl
  | e :: es => by rw [List.map_cons, List.zipWith_cons_cons, zip_chunk es]

theorem setOpt_opt (o : Option Nat) (ts : List Nat) : setOpt o (opt o ++ ts) = (o, ts) := by
  cases o with
  | none => cases ts <;> rfl
  | some x => rfl

theorem setOpt_opt' (o : Option Nat) : setOpt o (opt o) = (o, []) := by
  have := setOpt_opt o []
  simpa using this

/-- What `canonicalize_kind` does to a kind whose types are canonical: it sorts overloads. -/
def tidy (st : Store) : Kind → Kind
  | .callable o => .callable (sortBy st.sigCmp (stableDedup o))
  | k => k

theorem setKindArgs_id (st : Store) (k : Kind) : st.setKindArgs k (kindArgs k) = tidy st k := by
  cases k <;> try rfl
  case tuple es => simp only [kindArgs, Store.setKindArgs, zip_tuple, tidy]
  case infer p c => simp only [kindArgs, Store.setKindArgs, setOpt_opt', tidy]
  case mapped m => simp only [kindArgs, Store.setKindArgs, setOpt_opt, setOpt_opt', tidy]
  case template h s => simp only [kindArgs, Store.setKindArgs, zip_chunk, tidy]

theorem kindArgs_sub {k : Kind} {t : Nat} (h : t ∈ kindArgs k) : t ∈ kindTypes k := by
  cases k <;> simp only [kindArgs, kindTypes, opt, List.not_mem_nil] at h ⊢ <;> try exact h
  case mapped m =>
    simp only [List.mem_append] at h ⊢
    rcases h with h | h
    · exact .inl (.inr h)
    · exact .inr h

theorem mem_dedupFrom {x : Nat} : ∀ {seen ss : List Nat}, x ∈ dedupFrom seen ss ↔ x ∈ ss ∧ x ∉ seen
  | _, [] => by simp [dedupFrom]
  | seen, s :: ss => by
    unfold dedupFrom
    by_cases hs : seen.contains s
    · rw [if_pos hs, mem_dedupFrom]
      have hs' : s ∈ seen := by simpa using hs
      constructor
      · rintro ⟨h1, h2⟩; exact ⟨List.mem_cons_of_mem _ h1, h2⟩
      · rintro ⟨h1, h2⟩
        rcases List.mem_cons.1 h1 with rfl | h1
        · exact absurd hs' h2
        · exact ⟨h1, h2⟩
    · rw [if_neg hs, List.mem_cons, mem_dedupFrom]
      have hs' : s ∉ seen := by simpa using hs
      constructor
      · rintro (rfl | ⟨h1, h2⟩)
        · exact ⟨List.mem_cons_self .., hs'⟩
        · exact ⟨List.mem_cons_of_mem _ h1, fun h => h2 (List.mem_cons_of_mem _ h)⟩
      · rintro ⟨h1, h2⟩
        by_cases e : x = s
        · exact .inl e
        · rcases List.mem_cons.1 h1 with rfl | h1
          · exact absurd rfl e
          · exact .inr ⟨h1, fun h => (List.mem_cons.1 h).elim e h2⟩

theorem nodup_dedupFrom : ∀ {seen ss : List Nat}, (dedupFrom seen ss).Nodup
  | _, [] => by simp [dedupFrom]
  | seen, s :: ss => by
    unfold dedupFrom
    by_cases hs : seen.contains s
    · rw [if_pos hs]; exact nodup_dedupFrom
    · rw [if_neg hs, List.nodup_cons]
      exact ⟨fun h => (mem_dedupFrom.1 h).2 (List.mem_cons_self ..), nodup_dedupFrom⟩

theorem mem_stableDedup {x : Nat} {ss : List Nat} : x ∈ stableDedup ss ↔ x ∈ ss := by
  unfold stableDedup; rw [mem_dedupFrom]; simp

theorem mem_overloads {st : Store} {x : Nat} {ss : List Nat} :
    x ∈ sortBy st.sigCmp (stableDedup ss) ↔ x ∈ ss := by
  rw [(sortBy_perm _).mem_iff, mem_stableDedup]

theorem tidy_known {st : Store} {k : Kind} (h : KindKnown st k) : KindKnown st (tidy st k) := by
  cases k <;> try exact h
  case callable o =>
    refine ⟨h.types, fun _ e => (by cases e), fun ss e => ?_, fun _ e => by cases e⟩
    simp only [tidy, Kind.callable.injEq] at e
    subst e
    exact fun s hs => h.sigs o rfl s (mem_overloads.1 hs)

/-- `intern_type` of a kind that is neither a union nor an intersection. -/
theorem internType_eq {H : Hashes} {st : Store} {k : Kind} (hi : Core H st) (hk : KindKnown st k)
    (hu : ∀ ms, k ≠ .union ms) (hn : ∀ ms, k ≠ .inter ms) :
    st.internType H k = st.insertType H (tidy st k) := by
  have e := canonList_id hi (ts := kindArgs k) fun t ht => hk.types t (kindArgs_sub ht)
  unfold Store.internType
  cases k <;> first
    | exact absurd rfl (hu _)
    | exact absurd rfl (hn _)
    | simp only [e, setKindArgs_id]

theorem internType_ok {H : Hashes} {st st' : Store} {k : Kind} {i : Nat} (hi : Inv H st)
    (hk : KindKnown st k) (h : st.internType H k = some (st', i)) : Ok H st st' i := by
  by_cases hu : ∃ ms, k = .union ms
  · obtain ⟨ms, rfl⟩ := hu
    exact union_ok hi hk.types h
  · by_cases hn : ∃ ms, k = .inter ms
    · obtain ⟨ms, rfl⟩ := hn
      exact inter_ok hi hk.types h
    · rw [internType_eq hi.core hk (fun ms e => hu ⟨ms, e⟩) (fun ms e => hn ⟨ms, e⟩)] at h
      have ht : ∀ k', tidy st k = k' → (∃ ms, k' = .union ms) ∨ (∃ ms, k' = .inter ms) → False := by
        intro k' e ho
        cases k <;> simp only [tidy] at e <;> subst e <;> simp at ho hu hn
      obtain ⟨h1, h2, h3⟩ := insertType_spec hi.core (tidy_known hk)
        (fun ms e => (ht _ rfl (.inl ⟨ms, e⟩)).elim) (fun ms e => (ht _ rfl (.inr ⟨ms, e⟩)).elim) h
      exact ⟨⟨h1, hi.prims.mono h2⟩, h2, by rw [h3]; rfl⟩

/-! ## The other tables -/

theorem closed_ext {st st' : Store} {r : Nat → Nat} (hc : Closed st r) (hle : Le st st')
    (ht : st'.types = st.types)
    (hs : ∀ (i : Nat) (s : Signature), st'.sigs.lookup i = some s → TypesKnown st' (sigTypes s))
    (hsh : ∀ (i : Nat) (s : Shape), st'.shapes.lookup i = some s → ShapeKnown st' s)
    (ho : ∀ (o s : Nat), st'.objects.lookup o = some s → (st'.shapes.lookup s).isSome) :
    Closed st' r := by
  have hk : ∀ t, st'.kind? t = st.kind? t := fun t => by unfold Store.kind?; rw [ht]
  refine ⟨?_, hs, hsh, ho, ?_, ?_, ?_⟩
  · intro t k h
    rw [hk] at h
    exact ⟨((hc.types t k h).1).mono hle, ht ▸ (hc.types t k h).2⟩
  · intro t k h
    rw [hk] at h
    exact hc.rank t k h
  · intro t o h
    rw [hk] at h
    have hob := (hc.types t _ h).1.object o rfl
    have hsk := shape_known hc hob
    rw [hle.shapeOf hc hob]
    refine ⟨(hc.rankObj t o h).1, ?_⟩
    intro s hs
    rw [hle.sig (hsk.sigs s hs)]
    exact (hc.rankObj t o h).2 s hs
  · intro t ss h s hs
    rw [hk] at h
    rw [hle.sig ((hc.types t _ h).1.sigs ss rfl s hs)]
    exact hc.rankCall t ss h s hs

theorem core_ext {H : Hashes} {st st' : Store} (hi : Core H st) (hle : Le st st')
    (ht : st'.types = st.types) (h1 : MapOk H.shape st'.shapes) (h2 : MapOk H.object st'.objects)
    (h3 : MapOk H.sig st'.sigs) (h4 : NamesOk st'.names)
    (hs : ∀ (i : Nat) (s : Signature), st'.sigs.lookup i = some s → TypesKnown st' (sigTypes s))
    (hsh : ∀ (i : Nat) (s : Shape), st'.shapes.lookup i = some s → ShapeKnown st' s)
    (ho : ∀ (o s : Nat), st'.objects.lookup o = some s → (st'.shapes.lookup s).isSome) :
    Core H st' := by
  have hk : ∀ t, st'.kind? t = st.kind? t := fun t => by unfold Store.kind?; rw [ht]
  obtain ⟨r, hc⟩ := hi.closed
  refine ⟨ht ▸ hi.types, h1, h2, h3, h4, ⟨r, closed_ext hc hle ht hs hsh ho⟩, ?_, ?_⟩
  · intro t ms h
    rw [hk] at h
    exact (hi.unions t ms h).mono hle hc
  · intro t ms h
    rw [hk] at h
    exact (hi.inters t ms h).mono hle hc

theorem lookup_ins {V : Type} {m m' : List (Nat × V)} {i j : Nat} {v w : V}
    (h : m' = m ∨ (m.lookup i = none ∧ m' = (i, v) :: m)) (hj : m'.lookup j = some w) :
    m.lookup j = some w ∨ (j = i ∧ w = v) := by
  rcases h with rfl | ⟨_, rfl⟩
  · exact .inl hj
  · rw [List.lookup_cons] at hj
    by_cases e : j = i
    · subst e
      simp only [beq_self_eq_true, Option.some.injEq] at hj
      exact .inr ⟨rfl, hj.symm⟩
    · rw [show (j == i) = false by simpa using e] at hj
      exact .inl hj

theorem insertSig_ok {H : Hashes} {st : Store} {s : Signature} {m : List (Nat × Signature)} {i : Nat}
    (hi : Inv H st) (hk : TypesKnown st (sigTypes s))
    (h : insertWithCollision H.sig st.sigs s = some (m, i)) :
    Inv H { st with sigs := m } ∧ Le st { st with sigs := m } ∧ m.lookup i = some s := by
  obtain ⟨h1, h2, h3, h4⟩ := insert_spec hi.core.sigs h
  have hle : Le st { st with sigs := m } :=
    ⟨Ext.refl _, Ext.refl _, Ext.refl _, h1, Ext.refl _, rfl, Nat.le_refl _⟩
  obtain ⟨r, hc⟩ := hi.core.closed
  refine ⟨⟨core_ext hi.core hle rfl hi.core.shapes hi.core.objects h2 hi.core.names ?_ ?_ ?_,
    hi.prims.mono hle⟩, hle, h3⟩
  · intro j w hj
    rcases lookup_ins h4 hj with hj | ⟨_, rfl⟩
    · exact (hc.sigs j w hj).mono hle
    · exact hk.mono hle
  · exact fun j w hj => (hc.shapes j w hj).mono hle
  · exact hc.objects

theorem insertShape_ok {H : Hashes} {st : Store} {s : Shape} {m : List (Nat × Shape)} {i : Nat}
    (hi : Inv H st) (hk : ShapeKnown st s)
    (h : insertWithCollision H.shape st.shapes s = some (m, i)) :
    Inv H { st with shapes := m } ∧ Le st { st with shapes := m } ∧ m.lookup i = some s := by
  obtain ⟨h1, h2, h3, h4⟩ := insert_spec hi.core.shapes h
  have hle : Le st { st with shapes := m } :=
    ⟨Ext.refl _, h1, Ext.refl _, Ext.refl _, Ext.refl _, rfl, Nat.le_refl _⟩
  obtain ⟨r, hc⟩ := hi.core.closed
  refine ⟨⟨core_ext hi.core hle rfl h2 hi.core.objects hi.core.sigs hi.core.names ?_ ?_ ?_,
    hi.prims.mono hle⟩, hle, h3⟩
  · exact fun j w hj => (hc.sigs j w hj).mono hle
  · intro j w hj
    rcases lookup_ins h4 hj with hj | ⟨_, rfl⟩
    · exact (hc.shapes j w hj).mono hle
    · exact hk.mono hle
  · exact fun o s ho => isSome_ext h1 (hc.objects o s ho)

theorem insertObject_ok {H : Hashes} {st : Store} {s : Nat} {m : List (Nat × Nat)} {i : Nat}
    (hi : Inv H st) (hk : (st.shapes.lookup s).isSome)
    (h : insertWithCollision H.object st.objects s = some (m, i)) :
    Inv H { st with objects := m } ∧ Le st { st with objects := m } ∧ m.lookup i = some s := by
  obtain ⟨h1, h2, h3, h4⟩ := insert_spec hi.core.objects h
  have hle : Le st { st with objects := m } :=
    ⟨Ext.refl _, Ext.refl _, h1, Ext.refl _, Ext.refl _, rfl, Nat.le_refl _⟩
  obtain ⟨r, hc⟩ := hi.core.closed
  refine ⟨⟨core_ext hi.core hle rfl hi.core.shapes h2 hi.core.sigs hi.core.names ?_ ?_ ?_,
    hi.prims.mono hle⟩, hle, h3⟩
  · exact fun j w hj => (hc.sigs j w hj).mono hle
  · exact fun j w hj => (hc.shapes j w hj).mono hle
  · intro j w hj
    rcases lookup_ins h4 hj with hj | ⟨_, rfl⟩
    · exact hc.objects j w hj
    · exact hk

theorem internName_ok {H : Hashes} {st st' : Store} {s : List Nat} {i : Nat} (hi : Inv H st)
    (h : st.internName H s = some (st', i)) :
    Inv H st' ∧ Le st st' ∧ st'.names.byId.lookup i = some s := by
  unfold Store.internName at h
  split at h
  · cases h
  · rename_i n j e
    simp only [Option.some.injEq, Prod.mk.injEq] at h
    obtain ⟨rfl, rfl⟩ := h
    obtain ⟨h1, h2, h3⟩ := intern_spec hi.core.names e
    have hle : Le st { st with names := n } :=
      ⟨Ext.refl _, Ext.refl _, Ext.refl _, Ext.refl _, hi.core.names.extId h1 h3, rfl, Nat.le_refl _⟩
    obtain ⟨r, hc⟩ := hi.core.closed
    refine ⟨⟨core_ext hi.core hle rfl hi.core.shapes hi.core.objects hi.core.sigs h1 ?_ ?_ ?_,
      hi.prims.mono hle⟩, hle, h1.there _ _ h2⟩
    · exact fun j w hj => (hc.sigs j w hj).mono hle
    · exact fun j w hj => (hc.shapes j w hj).mono hle
    · exact hc.objects

end Verif.Types
