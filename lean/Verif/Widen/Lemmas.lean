import Verif.Widen.Model
import Verif.Widen.Spec
/-!
# Lemmas about widening
-/

namespace Verif.Widen
open Verif.Types
open Verif.Types.Store

variable {H : Hashes}

/-! ## What unions and intersections are made of -/

/-- A kind that only `any` brings in, or one without parts. -/
inductive Made (st st' : Store) (ms flat : List Nat) (i : Nat) : Prop where
  | any : st'.kind? i = some .any → (∃ m ∈ ms, st.kind? m = some .any) → Made st st' ms flat i
  | atom : (st'.kind? i = some .unknown ∨ st'.kind? i = some .never ∨ st'.kind? i = some .boolean) →
      Made st st' ms flat i
  | one : i ∈ flat → Made st st' ms flat i
  | union (l : List Nat) : st'.kind? i = some (.union l) → (∀ x ∈ l, x ∈ flat) → Made st st' ms flat i
  | inter (l : List Nat) : st'.kind? i = some (.inter l) → (∀ x ∈ l, x ∈ flat) → Made st st' ms flat i

theorem union_made {st st' : Store} {ms : List Nat} {i : Nat} (hi : Inv H st) (hk : TypesKnown st ms)
    (h : st.union H ms = some (st', i)) : Made st st' ms (ms.flatMap (uParts st)) i := by
  rw [union_eq hi.core hk] at h
  unfold unionOf at h
  split at h
  · rename_i ha
    simp only [Option.some.injEq, Prod.mk.injEq] at h
    obtain ⟨rfl, rfl⟩ := h
    obtain ⟨m, hm, e⟩ := hasKind_iff.1 ha
    exact .any hi.prims.any ⟨m, hm, e ▸ kind?_of_known (hk m hm)⟩
  · split at h
    · simp only [Option.some.injEq, Prod.mk.injEq] at h
      obtain ⟨rfl, rfl⟩ := h
      exact .atom (.inl hi.prims.unknown)
    · obtain ⟨hkf, hpf⟩ := flat_known hi.core hk
      have hm : ∀ x ∈ st.sortDedup ((ms.flatMap (uParts st)).filter
          (st.unionKeeps (ms.flatMap (uParts st)))), x ∈ ms.flatMap (uParts st) :=
        fun x hx => (mem_kept.1 hx).1
      cases unionFinish_spec hi.core hkf hpf h with
      | empty _ h1 h2 => subst h1 h2; exact .atom (.inr (.inl hi.prims.never))
      | one a hl h1 h2 => subst h1 h2; exact .one (hm _ (by rw [hl]; simp))
      | bool _ _ _ _ _ h1 h2 => subst h1 h2; exact .atom (.inr (.inr hi.prims.boolean))
      | many _ _ _ hl => exact .union _ hl hm

theorem inter_made {st st' : Store} {ms : List Nat} {i : Nat} (hi : Inv H st) (hk : TypesKnown st ms)
    (h : st.intersection H ms = some (st', i)) : Made st st' ms (ms.flatMap (iParts st)) i := by
  rw [inter_eq hi.core hk] at h
  unfold interOf at h
  split at h
  · simp only [Option.some.injEq, Prod.mk.injEq] at h
    obtain ⟨rfl, rfl⟩ := h
    exact .atom (.inr (.inl hi.prims.never))
  · split at h
    · rename_i ha
      simp only [Option.some.injEq, Prod.mk.injEq] at h
      obtain ⟨rfl, rfl⟩ := h
      obtain ⟨m, hm, e⟩ := hasKind_iff.1 ha
      exact .any hi.prims.any ⟨m, hm, e ▸ kind?_of_known (hk m hm)⟩
    · obtain ⟨hkf, hpf⟩ := flatI_known hi.core hk
      have hm : ∀ x ∈ st.sortDedup ((ms.flatMap (iParts st)).filter
          (st.interKeeps (ms.flatMap (iParts st)))), x ∈ ms.flatMap (iParts st) :=
        fun x hx => (mem_kept.1 hx).1
      cases interFinish_spec hi.core hkf hpf h with
      | empty _ h1 h2 => subst h1 h2; exact .atom (.inl hi.prims.unknown)
      | one a hl h1 h2 => subst h1 h2; exact .one (hm _ (by rw [hl]; simp))
      | clash _ _ h1 h2 => subst h1 h2; exact .atom (.inr (.inl hi.prims.never))
      | many _ _ _ hl => exact .inter _ hl hm

theorem uParts_not_any {st : Store} (hi : Core H st) {ms : List Nat} (hk : TypesKnown st ms) {i : Nat}
    (h : i ∈ ms.flatMap (uParts st)) : st.kind? i ≠ some .any := fun e =>
  ((flat_known hi hk).2 i h).1 (kind_of_kind? e)

theorem iParts_not_any {st : Store} (hi : Core H st) {ms : List Nat} (hk : TypesKnown st ms) {i : Nat}
    (h : i ∈ ms.flatMap (iParts st)) : st.kind? i ≠ some .any := fun e =>
  ((flatI_known hi hk).2 i h).1 (kind_of_kind? e)

/-! ## The store after widening -/

theorem Later.trans {a b c : Store} (h1 : Later H a b) (h2 : Later H b c) : Later H a c := by
  induction h2 with
  | refl => exact h1
  | op _ hk h ih => exact .op ih hk h

/-- What one call does to the store and to `any`. -/
structure Good (H : Hashes) (st : Store) (t : Nat) (st' : Store) (t' : Nat) : Prop where
  ok : Ok H st st' t'
  any : st'.kind? t' = some .any → st.kind? t = some .any
  later : Later H st st'

theorem mapAll_ok {f : Store → Nat → Option (Store × Nat)}
    (hf : ∀ st t st' t', Inv H st → (st.kind? t).isSome → f st t = some (st', t') → Good H st t st' t') :
    ∀ (ts : List Nat) (st st' : Store) (ts' : List Nat), Inv H st → TypesKnown st ts →
      mapAll f st ts = some (st', ts') → Inv H st' ∧ Le st st' ∧ TypesKnown st' ts' ∧ Later H st st' ∧
        (∀ t' ∈ ts', ∃ t ∈ ts, ∃ s s', Inv H s ∧ Le st s ∧ f s t = some (s', t') ∧ Le s' st') ∧
        (∀ t ∈ ts, ∃ t' ∈ ts', ∃ s s', Inv H s ∧ Le st s ∧ f s t = some (s', t') ∧ Le s' st')
  | [], st, st', ts', hi, hk, h => by
    simp only [mapAll, Option.some.injEq, Prod.mk.injEq] at h
    obtain ⟨rfl, rfl⟩ := h
    exact ⟨hi, Le.refl _, hk, .refl, by simp, by simp⟩
  | t :: ts, st, st', ts', hi, hk, h => by
    unfold mapAll at h
    split at h
    · cases h
    · rename_i s1 t1 e1
      split at h
      · cases h
      · rename_i s2 ts2 e2
        simp only [Option.some.injEq, Prod.mk.injEq] at h
        obtain ⟨rfl, rfl⟩ := h
        have g := hf _ _ _ _ hi (hk t (by simp)) e1
        obtain ⟨h1, h2, h3, h0, h4, h5⟩ := mapAll_ok hf ts s1 s2 ts2 g.ok.inv
          (fun x hx => g.ok.le.known (hk x (by simp [hx]))) e2
        refine ⟨h1, g.ok.le.trans h2, ?_, Later.trans g.later h0, ?_, ?_⟩
        · intro x hx
          rcases List.mem_cons.1 hx with rfl | hx
          · exact h2.known g.ok.known
          · exact h3 x hx
        · intro x hx
          rcases List.mem_cons.1 hx with rfl | hx
          · exact ⟨t, by simp, st, s1, hi, Le.refl _, e1, h2⟩
          · obtain ⟨u, hu, s, s', a, b, c, d⟩ := h4 x hx
            exact ⟨u, by simp [hu], s, s', a, g.ok.le.trans b, c, d⟩
        · intro x hx
          rcases List.mem_cons.1 hx with rfl | hx
          · exact ⟨t1, by simp, st, s1, hi, Le.refl _, e1, h2⟩
          · obtain ⟨u, hu, s, s', a, b, c, d⟩ := h5 x hx
            exact ⟨u, by simp [hu], s, s', a, g.ok.le.trans b, c, d⟩

theorem members_known {st : Store} (hi : Core H st) {t : Nat} {k : Kind} (h : st.kind? t = some k) :
    TypesKnown st (kindTypes k) := by
  obtain ⟨r, hc⟩ := hi.closed
  exact (hc.types t k h).1.types

theorem array_known {st : Store} {a : Nat} {r : Bool} (h : (st.kind? a).isSome) :
    KindKnown st (.array a r) :=
  ⟨by intro x hx; simp only [kindTypes, List.mem_singleton] at hx; rw [hx]; exact h,
    fun _ h => (by cases h), fun _ h => (by cases h), fun _ h => (by cases h)⟩

theorem internArray {st st' : Store} {a i : Nat} {r : Bool} (hi : Inv H st) (h : (st.kind? a).isSome)
    (e : st.internType H (.array a r) = some (st', i)) :
    Ok H st st' i ∧ st'.kind? i = some (.array a r) := by
  refine ⟨internType_ok hi (array_known h) e, ?_⟩
  rw [internType_eq hi.core (array_known h) (fun _ h => by cases h) (fun _ h => by cases h)] at e
  exact (insertType_spec hi.core (array_known h) (fun _ h => by cases h) (fun _ h => by cases h) e).2.2

theorem widenLiteral_spec {st : Store} (hp : PrimsOk st) {t t' : Nat} (h : widenLiteral st t = some t') :
    (∃ q, st.kind? t = some (.numLit q) ∧ st.kind? t' = some .number) ∨
    (∃ q, st.kind? t = some (.strLit q) ∧ st.kind? t' = some .string) ∨
    (∃ q, st.kind? t = some (.boolLit q) ∧ st.kind? t' = some .boolean) ∨
    (∃ q, st.kind? t = some (.bigLit q) ∧ st.kind? t' = some .bigint) ∨
    (∃ k, st.kind? t = some k ∧ ¬ IsLiteral k ∧ t' = t) := by
  unfold widenLiteral at h
  split at h
  · cases h
  · rename_i q e
    cases h; exact .inl ⟨q, e, hp.number⟩
  · rename_i q e
    cases h; exact .inr (.inl ⟨q, e, hp.string⟩)
  · rename_i q e
    cases h; exact .inr (.inr (.inl ⟨q, e, hp.boolean⟩))
  · rename_i q e
    cases h; exact .inr (.inr (.inr (.inl ⟨q, e, hp.bigint⟩)))
  · rename_i k h1 h2 h3 h4 e
    cases h
    refine .inr (.inr (.inr (.inr ⟨k, e, ?_, rfl⟩)))
    intro hl
    cases k <;> first | exact hl | (first | exact h1 _ rfl | exact h2 _ rfl | exact h3 _ rfl | exact h4 _ rfl)

/-- The ways in which a call can go. -/
inductive Step (H : Hashes) (n : Nat) (st : Store) (t : Nat) (st' : Store) (t' : Nat) : Prop where
  | union (ms ms' : List Nat) (s : Store) : st.kind? t = some (.union ms) →
      mapAll (widenN H n) st ms = some (s, ms') → s.union H ms' = some (st', t') → Step H n st t st' t'
  | inter (ms ms' : List Nat) (s : Store) : st.kind? t = some (.inter ms) →
      mapAll (widenN H n) st ms = some (s, ms') → s.intersection H ms' = some (st', t') →
      Step H n st t st' t'
  | array (a a' : Nat) (r : Bool) (s : Store) : st.kind? t = some (.array a r) →
      widenN H n st a = some (s, a') → s.internType H (.array a' r) = some (st', t') →
      Step H n st t st' t'
  | leaf (k : Kind) : st.kind? t = some k → (∀ ms, k ≠ .union ms) → (∀ ms, k ≠ .inter ms) →
      (∀ a r, k ≠ .array a r) → widenLiteral st t = some t' → st' = st → Step H n st t st' t'

theorem widenN_step {n : Nat} {st st' : Store} {t t' : Nat} (h : widenN H (n + 1) st t = some (st', t')) :
    Step H n st t st' t' := by
  unfold widenN at h
  split at h
  · cases h
  · rename_i ms e
    split at h
    · cases h
    · rename_i s ms' e'
      exact .union ms ms' s e e' h
  · rename_i ms e
    split at h
    · cases h
    · rename_i s ms' e'
      exact .inter ms ms' s e e' h
  · rename_i a r e
    split at h
    · cases h
    · rename_i s a' e'
      exact .array a a' r s e e' h
  · rename_i k h1 h2 h3 e
    split at h
    · cases h
    · rename_i x e'
      simp only [Option.some.injEq, Prod.mk.injEq] at h
      obtain ⟨rfl, rfl⟩ := h
      exact .leaf k e (fun ms c => h1 ms c) (fun ms c => h2 ms c) (fun a r c => h3 a r c) e' rfl

theorem widenN_good : ∀ (n : Nat) (st : Store) (t : Nat) (st' : Store) (t' : Nat), Inv H st →
    (st.kind? t).isSome → widenN H n st t = some (st', t') → Good H st t st' t'
  | 0, _, _, _, _, _, _, h => by simp [widenN] at h
  | n + 1, st, t, st', t', hi, hk, h => by
    cases widenN_step h with
    | union ms ms' s e em eu =>
      obtain ⟨h1, h2, h3, h0, h4, _⟩ := mapAll_ok (widenN_good n) ms st s ms' hi
        (members_known hi.core e) em
      have ok := union_ok h1 h3 eu
      refine ⟨⟨ok.inv, h2.trans ok.le, ok.known⟩, fun ha => ?_, .op (o := .union ms') h0 h3 eu⟩
      cases union_made h1 h3 eu with
      | any _ hx =>
        obtain ⟨m', hm', ha'⟩ := hx
        obtain ⟨m, hm, s1, s2, i1, l1, e1, l2⟩ := h4 m' hm'
        have km := members_known hi.core e m hm
        have g := widenN_good n _ _ _ _ i1 (l1.known km) e1
        have := g.any (by rw [← l2.kind?_eq g.ok.known]; exact ha')
        rw [l1.kind?_eq km] at this
        exact absurd (kind_of_kind? this) ((hi.core.unions t ms e).plain m hm).1
      | atom hx => rw [ha] at hx; simp at hx
      | one hx =>
        refine absurd ?_ (uParts_not_any h1.core h3 hx)
        rw [ok.le.kind?_eq ((flat_known h1.core h3).1 _ hx)] at ha; exact ha
      | union l hx _ => rw [ha] at hx; simp at hx
      | inter l hx _ => rw [ha] at hx; simp at hx
    | inter ms ms' s e em eu =>
      obtain ⟨h1, h2, h3, h0, h4, _⟩ := mapAll_ok (widenN_good n) ms st s ms' hi
        (members_known hi.core e) em
      have ok := inter_ok h1 h3 eu
      refine ⟨⟨ok.inv, h2.trans ok.le, ok.known⟩, fun ha => ?_, .op (o := .inter ms') h0 h3 eu⟩
      cases inter_made h1 h3 eu with
      | any _ hx =>
        obtain ⟨m', hm', ha'⟩ := hx
        obtain ⟨m, hm, s1, s2, i1, l1, e1, l2⟩ := h4 m' hm'
        have km := members_known hi.core e m hm
        have g := widenN_good n _ _ _ _ i1 (l1.known km) e1
        have := g.any (by rw [← l2.kind?_eq g.ok.known]; exact ha')
        rw [l1.kind?_eq km] at this
        exact absurd (kind_of_kind? this) ((hi.core.inters t ms e).plain m hm).1
      | atom hx => rw [ha] at hx; simp at hx
      | one hx =>
        refine absurd ?_ (iParts_not_any h1.core h3 hx)
        rw [ok.le.kind?_eq ((flatI_known h1.core h3).1 _ hx)] at ha; exact ha
      | union l hx _ => rw [ha] at hx; simp at hx
      | inter l hx _ => rw [ha] at hx; simp at hx
    | array a a' r s e ea ei =>
      have g := widenN_good n _ _ _ _ hi (members_known hi.core e a (by simp [kindTypes])) ea
      obtain ⟨ok, hk'⟩ := internArray g.ok.inv g.ok.known ei
      exact ⟨⟨ok.inv, g.ok.le.trans ok.le, ok.known⟩, fun ha => (by rw [hk'] at ha; cases ha),
        .op (o := .type (.array a' r)) g.later (array_known g.ok.known) ei⟩
    | leaf k e _ _ _ el es =>
      subst es
      rcases widenLiteral_spec hi.prims el with ⟨q, _, h⟩ | ⟨q, _, h⟩ | ⟨q, _, h⟩ | ⟨q, _, h⟩ | ⟨k', hk', _, rfl⟩
      · exact ⟨.same hi (by rw [h]; rfl), fun ha => (by rw [h] at ha; cases ha), .refl⟩
      · exact ⟨.same hi (by rw [h]; rfl), fun ha => (by rw [h] at ha; cases ha), .refl⟩
      · exact ⟨.same hi (by rw [h]; rfl), fun ha => (by rw [h] at ha; cases ha), .refl⟩
      · exact ⟨.same hi (by rw [h]; rfl), fun ha => (by rw [h] at ha; cases ha), .refl⟩
      · exact ⟨.same hi hk, id, .refl⟩

end Verif.Widen
