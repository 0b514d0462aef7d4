import Verif.Subst.Model
import Verif.Subst.Spec
import Verif.Widen.Lemmas
/-!
# Where type parameters occur as the store grows
-/

namespace Verif.Subst
open Verif.Types
open Verif.Types.Store
open Verif.Harness (sortBy_perm)
open Verif.Widen (Made union_made inter_made)

variable {H : Hashes} {p : Nat}

theorem mentions_down {st S : Store} (hi : Core H st) (hle : Le st S) {t u : Nat}
    (ht : (st.kind? t).isSome) (h : Mentions S t u) : Mentions st t u ∧ (st.kind? u).isSome := by
  obtain ⟨r, hc⟩ := hi.closed
  have sigdown : ∀ {s : Nat} {sig : Signature}, (st.sigs.lookup s).isSome → S.sigs.lookup s = some sig →
      st.sigs.lookup s = some sig := by
    intro s sig hs e
    obtain ⟨x, hx⟩ := Option.isSome_iff_exists.1 hs
    rw [hle.sigs _ _ hx] at e
    rw [hx, e]
  have objdown : ∀ {o i : Nat} {sh : Shape}, st.kind? t = some (.object o) → S.objects.lookup o = some i →
      S.shapes.lookup i = some sh → st.objects.lookup o = some i ∧ st.shapes.lookup i = some sh := by
    intro o i sh hk ho hs
    obtain ⟨x, hx⟩ := Option.isSome_iff_exists.1 ((hc.types t _ hk).1.object o rfl)
    rw [hle.objects _ _ hx] at ho
    cases ho
    obtain ⟨y, hy⟩ := Option.isSome_iff_exists.1 (hc.objects o _ hx)
    rw [hle.shapes _ _ hy] at hs
    cases hs
    exact ⟨hx, hy⟩
  cases h with
  | part hk hu =>
    rw [hle.kind?_eq ht] at hk
    exact ⟨.part hk hu, (hc.types t _ hk).1.types u hu⟩
  | overload hk hs hg hu =>
    rw [hle.kind?_eq ht] at hk
    have hg := sigdown ((hc.types t _ hk).1.sigs _ rfl _ hs) hg
    exact ⟨.overload hk hs hg hu, hc.sigs _ _ hg u hu⟩
  | member hk ho hsh hu =>
    rw [hle.kind?_eq ht] at hk
    obtain ⟨ho, hsh⟩ := objdown hk ho hsh
    exact ⟨.member hk ho hsh hu, (hc.shapes _ _ hsh).types u hu⟩
  | signature hk ho hsh hs hg hu =>
    rw [hle.kind?_eq ht] at hk
    obtain ⟨ho, hsh⟩ := objdown hk ho hsh
    have hg := sigdown ((hc.shapes _ _ hsh).sigs _ hs) hg
    exact ⟨.signature hk ho hsh hs hg hu, hc.sigs _ _ hg u hu⟩

theorem inside_down {st S : Store} (hi : Core H st) (hle : Le st S) {t u : Nat}
    (h : Inside S t u) (ht : (st.kind? t).isSome) : Inside st t u ∧ (st.kind? u).isSome := by
  induction h with
  | self t => exact ⟨.self t, ht⟩
  | step hm _ ih =>
    obtain ⟨a, b⟩ := mentions_down hi hle ht hm
    exact ⟨.step a (ih b).1, (ih b).2⟩

theorem occurs_down {st S : Store} (hi : Core H st) (hle : Le st S) {t : Nat}
    (ht : (st.kind? t).isSome) (h : Occurs S p t) : Occurs st p t := by
  obtain ⟨u, hu, e⟩ := h
  obtain ⟨a, b⟩ := inside_down hi hle hu ht
  exact ⟨u, a, by rw [← hle.kind?_eq b]; exact e⟩

theorem hidden_down {st S : Store} (hi : Core H st) (hle : Le st S) {t : Nat}
    (ht : (st.kind? t).isSome) (h : Hidden S p t) : Hidden st p t := by
  obtain ⟨u, k, hu, e, ho, hp⟩ := h
  obtain ⟨a, b⟩ := inside_down hi hle hu ht
  exact ⟨u, k, a, by rw [← hle.kind?_eq b]; exact e, ho, occurs_down hi hle b hp⟩

theorem occurs_step {st : Store} {t : Nat} (h : Occurs st p t) :
    st.kind? t = some (.typeParam p) ∨ ∃ u, Mentions st t u ∧ Occurs st p u := by
  obtain ⟨u, hu, e⟩ := h
  cases hu with
  | self => exact .inl e
  | step hm h => exact .inr ⟨_, hm, _, h, e⟩

theorem hidden_mentions {st : Store} {t u : Nat} (h : Mentions st t u) (hu : Hidden st p u) :
    Hidden st p t := by
  obtain ⟨v, k, a, b⟩ := hu
  exact ⟨v, k, .step h a, b⟩

theorem occurs_mentions {st : Store} {t u : Nat} (h : Mentions st t u) (hu : Occurs st p u) :
    Occurs st p t := by
  obtain ⟨v, a, b⟩ := hu
  exact ⟨v, .step h a, b⟩

/-! ## Types and signatures free of the parameter -/

/-- A type of the store in which `p` does not occur. -/
def CleanType (st : Store) (p t : Nat) : Prop := (st.kind? t).isSome ∧ ¬ Occurs st p t

def CleanSig (st : Store) (p i : Nat) : Prop :=
  ∃ sig, st.sigs.lookup i = some sig ∧ ∀ u ∈ sigTypes sig, CleanType st p u

def CleanShape (st : Store) (p i : Nat) : Prop :=
  ∃ sh, st.shapes.lookup i = some sh ∧ (∀ u ∈ shapeTypes sh, CleanType st p u) ∧
    ∀ s ∈ shapeSigs sh, CleanSig st p s

theorem CleanType.mono {st S : Store} (hi : Core H st) (hle : Le st S) {t : Nat}
    (h : CleanType st p t) : CleanType S p t :=
  ⟨hle.known h.1, fun ho => h.2 (occurs_down hi hle h.1 ho)⟩

theorem CleanSig.mono {st S : Store} (hi : Core H st) (hle : Le st S) {t : Nat}
    (h : CleanSig st p t) : CleanSig S p t := by
  obtain ⟨sig, a, b⟩ := h
  exact ⟨sig, hle.sigs _ _ a, fun u hu => (b u hu).mono hi hle⟩

theorem CleanShape.mono {st S : Store} (hi : Core H st) (hle : Le st S) {t : Nat}
    (h : CleanShape st p t) : CleanShape S p t := by
  obtain ⟨sh, a, b, c⟩ := h
  exact ⟨sh, hle.shapes _ _ a, fun u hu => (b u hu).mono hi hle, fun s hs => (c s hs).mono hi hle⟩

/-- A kind whose parts are free of `p`. -/
structure CleanKind (st : Store) (p : Nat) (k : Kind) : Prop where
  param : k ≠ .typeParam p
  types : ∀ u ∈ kindTypes k, CleanType st p u
  sigs : ∀ ss, k = .callable ss → ∀ s ∈ ss, CleanSig st p s
  object : ∀ o, k = .object o → ∃ i, st.objects.lookup o = some i ∧ CleanShape st p i

theorem CleanKind.mono {st S : Store} (hi : Core H st) (hle : Le st S) {k : Kind}
    (h : CleanKind st p k) : CleanKind S p k :=
  ⟨h.param, fun u hu => (h.types u hu).mono hi hle, fun ss e s hs => (h.sigs ss e s hs).mono hi hle,
    fun o e => (h.object o e).elim fun i hx => ⟨i, hle.objects _ _ hx.1, hx.2.mono hi hle⟩⟩

theorem clean_of_kind {st : Store} {t : Nat} {k : Kind} (e : st.kind? t = some k)
    (h : CleanKind st p k) : CleanType st p t := by
  refine ⟨by rw [e]; rfl, fun ho => ?_⟩
  rcases occurs_step ho with h1 | ⟨u, hm, ho⟩
  · rw [e] at h1
    exact h.param (Option.some.inj h1)
  · cases hm with
    | part hk hu =>
      rw [e] at hk; cases hk
      exact (h.types u hu).2 ho
    | overload hk hs hg hu =>
      rw [e] at hk; cases hk
      obtain ⟨sig, a, b⟩ := h.sigs _ rfl _ hs
      rw [hg] at a; cases a
      exact (b u hu).2 ho
    | member hk hob hsh hu =>
      rw [e] at hk; cases hk
      obtain ⟨i, a, sh, b, c, _⟩ := h.object _ rfl
      rw [hob] at a; cases a
      rw [hsh] at b; cases b
      exact (c u hu).2 ho
    | signature hk hob hsh hs hg hu =>
      rw [e] at hk; cases hk
      obtain ⟨i, a, sh, b, _, c⟩ := h.object _ rfl
      rw [hob] at a; cases a
      rw [hsh] at b; cases b
      obtain ⟨sig, a, b⟩ := c _ hs
      rw [hg] at a; cases a
      exact (b u hu).2 ho

theorem clean_part {st : Store} (hi : Core H st) {t u : Nat} (h : CleanType st p t)
    (hm : Mentions st t u) : CleanType st p u :=
  ⟨(mentions_down hi (Le.refl _) h.1 hm).2, fun ho => h.2 (occurs_mentions hm ho)⟩

theorem CleanKind.known {st : Store} {k : Kind} (h : CleanKind st p k)
    (hn : ∀ n, k = .strLit n → (st.names.byId.lookup n).isSome) : KindKnown st k :=
  ⟨fun u hu => (h.types u hu).1, fun o e => (h.object o e).elim fun i hx => by rw [hx.1]; rfl,
    fun ss e s hs => (h.sigs ss e s hs).elim fun sig hx => by rw [hx.1]; rfl, hn⟩

theorem uParts_clean {st : Store} (hi : Core H st) {ms : List Nat}
    (h : ∀ m ∈ ms, CleanType st p m) : ∀ x ∈ ms.flatMap (uParts st), CleanType st p x := by
  intro x hx
  obtain ⟨m, hm, hx⟩ := List.mem_flatMap.1 hx
  have hkm := kind?_of_known (h m hm).1
  unfold uParts at hx
  split at hx
  · cases hx
  · cases hx
  · cases hx
  · rename_i inner e
    rw [e] at hkm
    exact clean_part hi (h m hm) (.part hkm hx)
  · rw [List.mem_singleton.1 hx]; exact h m hm

theorem iParts_clean {st : Store} (hi : Core H st) {ms : List Nat}
    (h : ∀ m ∈ ms, CleanType st p m) : ∀ x ∈ ms.flatMap (iParts st), CleanType st p x := by
  intro x hx
  obtain ⟨m, hm, hx⟩ := List.mem_flatMap.1 hx
  have hkm := kind?_of_known (h m hm).1
  unfold iParts at hx
  split at hx
  · cases hx
  · cases hx
  · cases hx
  · rename_i inner e
    rw [e] at hkm
    exact clean_part hi (h m hm) (.part hkm hx)
  · rw [List.mem_singleton.1 hx]; exact h m hm

theorem cleanKind_flat {st : Store} {k : Kind} (hp : k ≠ .typeParam p) (h1 : ∀ ss, k ≠ .callable ss)
    (h2 : ∀ o, k ≠ .object o) (h : ∀ u ∈ kindTypes k, CleanType st p u) : CleanKind st p k :=
  ⟨hp, h, fun ss e => absurd e (h1 ss), fun o e => absurd e (h2 o)⟩

theorem made_clean {st st' : Store} {ms flat : List Nat} {i : Nat} (hi : Core H st)
    (hle : Le st st') (h : ∀ x ∈ flat, CleanType st p x)
    (hm : Made st st' ms flat i) : CleanType st' p i := by
  cases hm with
  | any e _ => exact clean_of_kind e (cleanKind_flat (by simp) (by simp) (by simp) (by simp [kindTypes]))
  | atom e =>
    rcases e with e | e | e <;>
      exact clean_of_kind e (cleanKind_flat (by simp) (by simp) (by simp) (by simp [kindTypes]))
  | one hx => exact (h i hx).mono hi hle
  | union l e hl =>
    exact clean_of_kind e (cleanKind_flat (by simp) (by simp) (by simp)
      fun m hm => (h m (hl m hm)).mono hi hle)
  | inter l e hl =>
    exact clean_of_kind e (cleanKind_flat (by simp) (by simp) (by simp)
      fun m hm => (h m (hl m hm)).mono hi hle)

theorem inter_clean {st st' : Store} {ms : List Nat} {i : Nat} (hi : Inv H st)
    (h : ∀ m ∈ ms, CleanType st p m) (e : st.intersection H ms = some (st', i)) : CleanType st' p i :=
  made_clean hi.core (inter_ok hi (fun t ht => (h t ht).1) e).le (iParts_clean hi.core h)
    (inter_made hi (fun t ht => (h t ht).1) e)

theorem internType_clean {st st' : Store} {k : Kind} {i : Nat} (hi : Inv H st) (hk : KindKnown st k)
    (h : CleanKind st p k) (e : st.internType H k = some (st', i)) : CleanType st' p i := by
  by_cases hu : ∃ ms, k = .union ms
  · obtain ⟨ms, rfl⟩ := hu
    exact made_clean hi.core (union_ok hi hk.types e).le (uParts_clean hi.core h.types)
      (union_made hi hk.types e)
  · by_cases hn : ∃ ms, k = .inter ms
    · obtain ⟨ms, rfl⟩ := hn
      exact inter_clean hi h.types e
    · rw [internType_eq hi.core hk (fun ms e => hu ⟨ms, e⟩) (fun ms e => hn ⟨ms, e⟩)] at e
      have hct : CleanKind st p (tidy st k) := by
        cases k <;> try exact h
        case callable o =>
          refine ⟨by simp [tidy], by simp [tidy, kindTypes], fun ss e s hs => ?_, fun _ e => by cases e⟩
          simp only [tidy, Kind.callable.injEq] at e
          subst e
          exact h.sigs o rfl s (mem_overloads.1 hs)
      have ht : ∀ k', tidy st k = k' → (∃ ms, k' = .union ms) ∨ (∃ ms, k' = .inter ms) → False := by
        intro k' e ho
        cases k <;> simp only [tidy] at e <;> subst e <;> simp at ho hu hn
      obtain ⟨h1, h2, h3⟩ := insertType_spec hi.core (tidy_known hk)
        (fun ms e => (ht _ rfl (.inl ⟨ms, e⟩)).elim) (fun ms e => (ht _ rfl (.inr ⟨ms, e⟩)).elim) e
      exact clean_of_kind h3 (hct.mono hi.core h2)

/-! ## Shapes -/

def CleanProp (st : Store) (p : Nat) (x : Property) : Prop :=
  CleanType st p x.data.ty ∧ KeyKnown st x.key

def CleanIndexer (st : Store) (p : Nat) (x : Indexer) : Prop :=
  CleanType st p x.keyType ∧ CleanType st p x.valueType

theorem CleanProp.mono {st S : Store} (hi : Core H st) (hle : Le st S) {x : Property}
    (h : CleanProp st p x) : CleanProp S p x := ⟨h.1.mono hi hle, h.2.mono hle⟩

theorem CleanIndexer.mono {st S : Store} (hi : Core H st) (hle : Le st S) {x : Indexer}
    (h : CleanIndexer st p x) : CleanIndexer S p x := ⟨h.1.mono hi hle, h.2.mono hi hle⟩

theorem mergeProps_clean : ∀ (ps acc : List Property) (st : Store) (c : Bool) (st' : Store)
    (out : List Property), Inv H st → (∀ x ∈ ps, CleanProp st p x) → (∀ x ∈ acc, CleanProp st p x) →
    mergeProps H st ps acc c = some (st', out) →
    Inv H st' ∧ Le st st' ∧ ∀ x ∈ out, CleanProp st' p x
  | [], acc, st, c, st', out, hi, _, ha, h => by
    simp only [mergeProps, Option.some.injEq, Prod.mk.injEq] at h
    obtain ⟨rfl, rfl⟩ := h
    exact ⟨hi, Le.refl _, fun x hx => ha x (List.mem_reverse.1 hx)⟩
  | q :: ps, [], st, c, st', out, hi, hp, ha, h => by
    unfold mergeProps at h
    refine mergeProps_clean ps [q] st false st' out hi (fun x hx => hp x (List.mem_cons_of_mem _ hx)) ?_ h
    intro x hx
    rw [List.mem_singleton.1 hx]; exact hp q (List.mem_cons_self ..)
  | q :: ps, last :: acc, st, c, st', out, hi, hp, ha, h => by
    unfold mergeProps at h
    have hpp := hp q (List.mem_cons_self ..)
    have hl := ha last (List.mem_cons_self ..)
    split at h
    · split at h
      · cases h
      · rename_i st1 ty he
        have hk : ∀ t ∈ [last.data.ty, q.data.ty], CleanType st p t := by
          intro t ht
          rcases List.mem_cons.1 ht with rfl | ht
          · exact hl.1
          · rw [List.mem_singleton.1 ht]; exact hpp.1
        obtain ⟨h1, h2, h3⟩ := inter_ok hi (fun t ht => (hk t ht).1) he
        obtain ⟨a, b, d⟩ := mergeProps_clean ps _ st1 _ st' out h1
          (fun x hx => (hp x (List.mem_cons_of_mem _ hx)).mono hi.core h2) (by
            intro x hx
            rcases List.mem_cons.1 hx with rfl | hx
            · exact ⟨inter_clean hi hk he, hl.2.mono h2⟩
            · exact (ha x (List.mem_cons_of_mem _ hx)).mono hi.core h2) h
        exact ⟨a, h2.trans b, d⟩
    · refine mergeProps_clean ps (q :: last :: acc) st false st' out hi
        (fun x hx => hp x (List.mem_cons_of_mem _ hx)) ?_ h
      intro x hx
      rcases List.mem_cons.1 hx with rfl | hx
      · exact hpp
      · exact ha x hx

theorem mergeIndexers_clean : ∀ (xs acc : List Indexer) (st : Store) (st' : Store)
    (out : List Indexer), Inv H st → (∀ x ∈ xs, CleanIndexer st p x) →
    (∀ x ∈ acc, CleanIndexer st p x) → mergeIndexers H st xs acc = some (st', out) →
    Inv H st' ∧ Le st st' ∧ ∀ x ∈ out, CleanIndexer st' p x
  | [], acc, st, st', out, hi, _, ha, h => by
    simp only [mergeIndexers, Option.some.injEq, Prod.mk.injEq] at h
    obtain ⟨rfl, rfl⟩ := h
    exact ⟨hi, Le.refl _, fun x hx => ha x (List.mem_reverse.1 hx)⟩
  | q :: ps, [], st, st', out, hi, hp, ha, h => by
    unfold mergeIndexers at h
    refine mergeIndexers_clean ps [q] st st' out hi (fun x hx => hp x (List.mem_cons_of_mem _ hx)) ?_ h
    intro x hx
    rw [List.mem_singleton.1 hx]; exact hp q (List.mem_cons_self ..)
  | q :: ps, last :: acc, st, st', out, hi, hp, ha, h => by
    unfold mergeIndexers at h
    have hpp := hp q (List.mem_cons_self ..)
    have hl := ha last (List.mem_cons_self ..)
    split at h
    · split at h
      · cases h
      · rename_i st1 ty he
        have hk : ∀ t ∈ [last.valueType, q.valueType], CleanType st p t := by
          intro t ht
          rcases List.mem_cons.1 ht with rfl | ht
          · exact hl.2
          · rw [List.mem_singleton.1 ht]; exact hpp.2
        obtain ⟨h1, h2, h3⟩ := inter_ok hi (fun t ht => (hk t ht).1) he
        obtain ⟨a, b, d⟩ := mergeIndexers_clean ps _ st1 st' out h1
          (fun x hx => (hp x (List.mem_cons_of_mem _ hx)).mono hi.core h2) (by
            intro x hx
            rcases List.mem_cons.1 hx with rfl | hx
            · exact ⟨hl.1.mono hi.core h2, inter_clean hi hk he⟩
            · exact (ha x (List.mem_cons_of_mem _ hx)).mono hi.core h2) h
        exact ⟨a, h2.trans b, d⟩
    · refine mergeIndexers_clean ps (q :: last :: acc) st st' out hi
        (fun x hx => hp x (List.mem_cons_of_mem _ hx)) ?_ h
      intro x hx
      rcases List.mem_cons.1 hx with rfl | hx
      · exact hpp
      · exact ha x hx

theorem internShape_clean {st st' : Store} {s : Shape} {i : Nat} (hi : Inv H st) (hk : ShapeKnown st s)
    (ht : ∀ u ∈ shapeTypes s, CleanType st p u) (hs : ∀ g ∈ shapeSigs s, CleanSig st p g)
    (h : st.internShape H s = some (st', i)) : CleanShape st' p i := by
  have hok := internShape_ok hi hk h
  rw [internShape_eq hi.core hk] at h
  unfold shapeOf' at h
  have hprop : ∀ x ∈ s.properties, CleanProp st p x := fun x hx =>
    ⟨ht _ (List.mem_append_left _ (List.mem_map.2 ⟨x, hx, rfl⟩)), hk.keys x hx⟩
  have hidx : ∀ x ∈ s.indexers, CleanIndexer st p x := fun x hx =>
    ⟨ht _ (List.mem_append_right _ (List.mem_flatMap.2 ⟨x, hx, by simp⟩)),
      ht _ (List.mem_append_right _ (List.mem_flatMap.2 ⟨x, hx, by simp⟩))⟩
  split at h
  · cases h
  · rename_i st1 props h1
    simp only at h
    split at h
    · cases h
    · rename_i st2 idx h2
      split at h
      · cases h
      · rename_i m j h3
        simp only [Option.some.injEq, Prod.mk.injEq] at h
        obtain ⟨rfl, rfl⟩ := h
        obtain ⟨a1, a2, a3⟩ := mergeProps_clean _ _ _ _ _ _ hi
          (fun x hx => hprop x ((sortBy_perm (cmp := fun a b => st.cmpKey a.key b.key) _).mem_iff.1 hx))
          (fun x hx => absurd hx List.not_mem_nil) h1
        obtain ⟨b1, b2, b3⟩ := mergeIndexers_clean _ _ _ _ _ a1
          (fun x hx => (hidx x ((sortBy_perm (cmp := cmpIndexer st1.typeCmp) _).mem_iff.1 hx)).mono
            hi.core a2) (fun x hx => absurd hx List.not_mem_nil) h2
        have h4 := insert_spec b1.core.shapes h3
        have hle : Le st2 { st2 with shapes := m } :=
          ⟨Ext.refl _, h4.1, Ext.refl _, Ext.refl _, Ext.refl _, rfl, Nat.le_refl _⟩
        refine ⟨_, h4.2.2.1, fun u hu => ?_, fun g hg => ?_⟩
        · rcases List.mem_append.1 hu with hu | hu
          · obtain ⟨x, hx, rfl⟩ := List.mem_map.1 hu
            exact ((a3 x hx).1.mono a1.core b2).mono b1.core hle
          · obtain ⟨x, hx, hu⟩ := List.mem_flatMap.1 hu
            have := b3 x hx
            simp only [List.mem_cons, List.not_mem_nil, or_false] at hu
            rcases hu with rfl | rfl
            · exact this.1.mono b1.core hle
            · exact this.2.mono b1.core hle
        · refine ((hs g ?_).mono hi.core (a2.trans b2)).mono b1.core hle
          rcases List.mem_append.1 hg with hg | hg
          · exact List.mem_append_left _ (mem_overloads.1 hg)
          · exact List.mem_append_right _ (mem_overloads.1 hg)

end Verif.Subst
