import Verif.Relate.Simple
import Verif.Relate.ValueSpec

namespace Verif.Relate

variable {C : Ctx}

/-- Every value of `a` is a value of `b`. -/
def Sub (C : Ctx) (a b : Id) (_ : Mode) : Prop := ∀ v, Mem C v a → Mem C v b

/-! ## Values by the kind of the type -/

theorem mem_simple {v : V} {t : Id} (h : Mem C v t) (hk : Simple (C.store.kind t) = true) :
    Has v.head (C.store.kind t) := by
  cases h with
  | simple h => exact h
  | template e => rw [e] at hk; cases hk
  | array e => rw [e] at hk; cases hk
  | tuple e => rw [e] at hk; cases hk
  | object e => rw [e] at hk; cases hk
  | elements e => rw [e] at hk; cases hk
  | union e => rw [e] at hk; cases hk
  | inter e => rw [e] at hk; cases hk
  | ref e => rw [e] at hk; cases hk

theorem mem_template {v : V} {t : Id} {p : Nat} (h : Mem C v t) (hk : C.store.kind t = .template p) :
    ∃ n, v = .str n ∧ C.store.strTemplate n p = true := by
  cases h with
  | simple h => rw [hk] at h; revert h; cases v.head <;> simp [Has]
  | template e h => rw [hk] at e; cases e; exact ⟨_, rfl, h⟩
  | array e => rw [hk] at e; cases e
  | tuple e => rw [hk] at e; cases e
  | object e => rw [hk] at e; cases e
  | elements e => rw [hk] at e; cases e
  | union e => rw [hk] at e; cases e
  | inter e => rw [hk] at e; cases e
  | ref e => rw [hk] at e; cases e

theorem mem_array {v : V} {t e : Id} {r : Bool} (h : Mem C v t) (hk : C.store.kind t = .array e r) :
    ∃ xs, v = .arr xs ∧ ∀ x ∈ xs, Mem C x e := by
  cases h with
  | simple h => rw [hk] at h; revert h; cases v.head <;> simp [Has]
  | template e => rw [hk] at e; cases e
  | array e h => rw [hk] at e; cases e; exact ⟨_, rfl, h⟩
  | tuple e => rw [hk] at e; cases e
  | object e => rw [hk] at e; cases e
  | elements e => rw [hk] at e; cases e
  | union e => rw [hk] at e; cases e
  | inter e => rw [hk] at e; cases e
  | ref e => rw [hk] at e; cases e

theorem mem_tuple {v : V} {t : Id} {es : List Elem} (h : Mem C v t)
    (hk : C.store.kind t = .tuple es) :
    ∃ xs, v = .arr xs ∧ xs.length ≤ es.length ∧
      (∀ (i : Nat) e, es[i]? = some e → e.optional = false → i < xs.length) ∧
      (∀ (i : Nat) e x, es[i]? = some e → xs[i]? = some x →
        (e.optional = true → x ≠ V.undef) → Mem C x e.ty) := by
  cases h with
  | simple h => rw [hk] at h; revert h; cases v.head <;> simp [Has]
  | template e => rw [hk] at e; cases e
  | array e => rw [hk] at e; cases e
  | tuple e _ h1 h2 h3 => rw [hk] at e; cases e; exact ⟨_, rfl, h1, h2, h3⟩
  | object e => rw [hk] at e; cases e
  | elements e => rw [hk] at e; cases e
  | union e => rw [hk] at e; cases e
  | inter e => rw [hk] at e; cases e
  | ref e => rw [hk] at e; cases e

/-- What an object or array of an object type satisfies. -/
def InShape (C : Ctx) (v : V) (s : Shape) : Prop :=
  (∃ has get, v = .obj has get ∧
    (∀ k k', C.store.otherKey k = some k' → has k' = has k ∧ get k' = get k) ∧
    (∀ p ∈ s.properties, FitsProp C has get p) ∧ ∀ i ∈ s.indexers, FitsIndex C has get i) ∨
  (∃ xs, v = .arr xs ∧ s.properties = [] ∧ ∀ i ∈ s.indexers,
    keyAccepts C.store C.limits.keyDepth i.keyType .num = true → ∀ x ∈ xs, Mem C x i.valueType)

theorem mem_object {v : V} {t : Id} {s : Shape} (h : Mem C v t) (hk : C.store.kind t = .object s) :
    InShape C v s := by
  cases h with
  | simple h => rw [hk] at h; revert h; cases v.head <;> simp [Has]
  | template e => rw [hk] at e; cases e
  | array e => rw [hk] at e; cases e
  | tuple e => rw [hk] at e; cases e
  | object e h1 h2 h3 h4 =>
    rw [hk] at e; cases e
    exact .inl ⟨_, _, rfl, h1, fun p hp => ⟨h2 p hp, h3 p hp⟩, h4⟩
  | elements e h1 h2 h3 h4 =>
    rw [hk] at e; cases e
    exact .inr ⟨_, rfl, h1, h4⟩
  | union e => rw [hk] at e; cases e
  | inter e => rw [hk] at e; cases e
  | ref e => rw [hk] at e; cases e

theorem mem_of_shape {v : V} {t : Id} {s : Shape} (hk : C.store.kind t = .object s)
    (hr : Readable (C.store.kind t) = true) (h : InShape C v s) : Mem C v t := by
  rw [hk] at hr
  simp only [Readable, Bool.and_eq_true, List.isEmpty_iff] at hr
  rcases h with ⟨has, get, rfl, h1, h2, h3⟩ | ⟨xs, rfl, h1, h2⟩
  · exact .object hk h1 (fun p hp => (h2 p hp).1) (fun p hp => (h2 p hp).2) h3
  · exact .elements hk h1 hr.1 hr.2 h2

theorem mem_union {v : V} {t : Id} {ms : List Id} (h : Mem C v t) (hk : C.store.kind t = .union ms) :
    ∃ m ∈ ms, Mem C v m := by
  cases h with
  | simple h => rw [hk] at h; revert h; cases v.head <;> simp [Has]
  | template e => rw [hk] at e; cases e
  | array e => rw [hk] at e; cases e
  | tuple e => rw [hk] at e; cases e
  | object e => rw [hk] at e; cases e
  | elements e => rw [hk] at e; cases e
  | union e h1 h2 => rw [hk] at e; cases e; exact ⟨_, h1, h2⟩
  | inter e => rw [hk] at e; cases e
  | ref e => rw [hk] at e; cases e

theorem mem_inter {v : V} {t : Id} {ms : List Id} (h : Mem C v t) (hk : C.store.kind t = .inter ms) :
    ∀ m ∈ ms, Mem C v m := by
  cases h with
  | simple h => rw [hk] at h; revert h; cases v.head <;> simp [Has]
  | template e => rw [hk] at e; cases e
  | array e => rw [hk] at e; cases e
  | tuple e => rw [hk] at e; cases e
  | object e => rw [hk] at e; cases e
  | elements e => rw [hk] at e; cases e
  | union e => rw [hk] at e; cases e
  | inter e h => rw [hk] at e; cases e; exact h
  | ref e => rw [hk] at e; cases e

theorem mem_ref {v : V} {t : Id} {d : Nat} {as : List Id} (h : Mem C v t)
    (hk : C.store.kind t = .ref d as) : ∃ t', C.store.expand d as = some t' ∧ Mem C v t' := by
  cases h with
  | simple h => rw [hk] at h; revert h; cases v.head <;> simp [Has]
  | template e => rw [hk] at e; cases e
  | array e => rw [hk] at e; cases e
  | tuple e => rw [hk] at e; cases e
  | object e => rw [hk] at e; cases e
  | elements e => rw [hk] at e; cases e
  | union e => rw [hk] at e; cases e
  | inter e => rw [hk] at e; cases e
  | ref e h1 h2 => rw [hk] at e; cases e; exact ⟨_, h1, h2⟩

/-! ## The rules -/

section
variable (W : Faithful C) (hidx : C.opts.uncheckedIndex = false) (hnull : C.opts.strictNull = true)

include W in
theorem mem_optElem {v : V} {t : Id} {b : Bool} :
    Mem C v (optElem C.store t b) ↔ Mem C v t ∨ (b = true ∧ v = .undef) := by
  cases b <;> simp [optElem, W.orUndefined]

include W in
theorem mem_optProp {v : V} {t : Id} {b : Bool} :
    Mem C v (optProp C.store C.opts t b) ↔
      Mem C v t ∨ (b = true ∧ C.opts.exactOptional = false ∧ v = .undef) := by
  cases b <;> cases h : C.opts.exactOptional <;> simp [optProp, W.orUndefined, h]

theorem find_key {s : Shape} {k : PropKey} {q : Property} (h : findProperty C.store s k = some q) :
    q ∈ s.properties ∧ (q.key = k ∨ C.store.otherKey k = some q.key) := by
  rw [findProperty] at h
  split at h
  · rename_i p hp
    cases h
    have := List.find?_some hp
    exact ⟨List.mem_of_find?_eq_some hp, .inl (by simpa using this)⟩
  · split at h
    · cases h
    · rename_i k' hk'
      have := List.find?_some h
      refine ⟨List.mem_of_find?_eq_some h, .inr ?_⟩
      simp only [decide_eq_true_eq] at this
      rw [hk', this]

include W hidx in
theorem property_sound {s d : Shape} {m : Mode} (hf : FairShapes C s d) {p : Property}
    (hp : p ∈ d.properties)
    (h : Holds (Sub C) (property C.store C.opts C.limits.keyDepth s m p))
    {has : PropKey → Bool} {get : PropKey → V}
    (hkey : ∀ k k', C.store.otherKey k = some k' → has k' = has k ∧ get k' = get k)
    (hs : ∀ p ∈ s.properties, FitsProp C has get p) : FitsProp C has get p := by
  rw [property] at h
  cases hq : findProperty C.store s p.key with
  | none =>
    obtain ⟨h1, h2⟩ := hf.1 p hp hq
    simp [hq, h1, h2, Holds] at h
  | some q =>
    obtain ⟨hmem, hk⟩ := find_key hq
    have hk' : has q.key = has p.key ∧ get q.key = get p.key := by
      rcases hk with e | e
      · rw [e]; exact ⟨rfl, rfl⟩
      · exact hkey _ _ e
    have fit := hs q hmem
    rw [FitsProp, hk'.1, hk'.2] at fit
    simp only [hq] at h
    split at h
    · exact h.elim
    split at h
    · exact h.elim
    split at h
    · exact h.elim
    rename_i hopt
    refine ⟨fun hp' => fit.1 (by cases hqo : q.optional <;> simp_all), fun hh hc => ?_⟩
    have hv : Mem C (get p.key) (optProp C.store C.opts q.ty q.optional) := by
      rw [mem_optProp W]
      by_cases hu : q.optional = true ∧ C.opts.exactOptional = false ∧ get p.key = .undef
      · exact .inr hu
      · exact .inl (fit.2 hh (fun h1 h2 h3 => hu ⟨h1, h2, h3⟩))
    rcases (mem_optProp W).1 (h _ hv) with h | ⟨h1, h2, h3⟩
    · exact h
    · exact absurd h3 (hc h1 h2)

theorem minBy_mem {A : Type} {f : A → Nat} : ∀ {l : List A} {x : A}, minBy f l = some x → x ∈ l
  | [], _, h => by cases h
  | y :: l, x, h => by
    rw [minBy] at h
    split at h
    · cases h; simp
    · rename_i z hz
      split at h
      · cases h; exact List.mem_cons_of_mem _ (minBy_mem hz)
      · cases h; simp

theorem covers_accepts {S : Store} {n : Nat} {a b : Id} (h : keyCovers S n a b = true) (k : KeyKind)
    (hk : keyAccepts S n b k = true) : keyAccepts S n a k = true := by
  simp only [keyCovers, List.all_eq_true] at h
  have := h k (by cases k <;> simp)
  simpa [hk] using this

include hidx in
theorem indexer_sound {s d : Shape} {m : Mode} (hf : FairShapes C s d) {i : Indexer}
    (hi : i ∈ d.indexers)
    (h : Holds (Sub C) (indexer C.store C.opts C.limits.keyDepth s m i)) :
    ∃ j ∈ s.indexers, (∀ k, keyAccepts C.store C.limits.keyDepth i.keyType k = true →
      keyAccepts C.store C.limits.keyDepth j.keyType k = true) ∧
      ∀ v, Mem C v j.valueType → Mem C v i.valueType := by
  rw [indexer] at h
  cases hq : matchingIndexer C.store C.limits.keyDepth s i with
  | none =>
    have := hf.2 i hi hq
    simp [hq, this, Holds] at h
  | some j =>
    have hj := minBy_mem hq
    rw [List.mem_filter] at hj
    simp only [hq] at h
    split at h
    · exact h.elim
    refine ⟨j, hj.1, fun k hk => covers_accepts hj.2 k hk, fun v hv => ?_⟩
    have := h v (by simpa [idxValue, hidx] using hv)
    simpa [idxValue, hidx] using this

include W hidx in
theorem object_sound {s d : Shape} {m : Mode} (hf : FairShapes C s d)
    (h : Holds (Sub C) (object C.store C.opts C.limits.keyDepth s d m)) {v : V}
    (hv : InShape C v s) : InShape C v d := by
  rw [object] at h
  obtain ⟨h1, h2, _⟩ := h
  rw [holds_all] at h1 h2
  have hprop : ∀ p ∈ d.properties,
      Holds (Sub C) (property C.store C.opts C.limits.keyDepth s m p) :=
    fun p hp => h1 _ (List.mem_map_of_mem hp)
  have hindex : ∀ i ∈ d.indexers,
      Holds (Sub C) (indexer C.store C.opts C.limits.keyDepth s m i) :=
    fun i hi => h2 _ (List.mem_map_of_mem hi)
  rcases hv with ⟨has, get, rfl, hkey, hs, hsi⟩ | ⟨xs, rfl, hs, hsi⟩
  · refine .inl ⟨has, get, rfl, hkey, fun p hp => property_sound W hidx hf hp (hprop p hp) hkey hs, ?_⟩
    intro i hi k hk hacc
    obtain ⟨j, hj, hc, hsub⟩ := indexer_sound hidx hf hi (hindex i hi)
    exact hsub _ (hsi j hj k hk (hc _ hacc))
  · refine .inr ⟨xs, rfl, ?_, ?_⟩
    · cases hd : d.properties with
      | nil => rfl
      | cons p ps =>
        have hp : p ∈ d.properties := by rw [hd]; simp
        have hq : findProperty C.store s p.key = none := by
          simp [findProperty, hs]
          split <;> rfl
        obtain ⟨h3, h4⟩ := hf.1 p hp hq
        have := hprop p hp
        rw [property] at this
        simp [hq, h3, h4, Holds] at this
    · intro i hi hacc x hx
      obtain ⟨j, hj, hc, hsub⟩ := indexer_sound hidx hf hi (hindex i hi)
      exact hsub _ (hsi j hj (hc _ hacc) x hx)

/-- A value of all members of an intersection of object types is in the merged shape. -/
theorem merge_sound : ∀ {ms : List Id} {s : Shape} {v : V}, merge C.store ms = some s → ms ≠ [] →
    (∀ m ∈ ms, Mem C v m) → InShape C v s
  | [], _, _, _, h, _ => absurd rfl h
  | t :: ts, s, v, hm, _, hv => by
    rw [merge] at hm
    split at hm
    · rename_i u hu
      split at hm
      · rename_i r hr
        cases hm
        have ht := mem_object (hv t (by simp)) hu
        by_cases hts : ts = []
        · subst hts
          cases hr
          simpa [InShape] using ht
        have hrest := merge_sound hr hts (fun m hm => hv m (List.mem_cons_of_mem _ hm))
        rcases ht with ⟨has, get, rfl, k1, p1, i1⟩ | ⟨xs, rfl, p1, i1⟩
        · rcases hrest with ⟨has', get', e, k2, p2, i2⟩ | ⟨xs, e, _⟩
          · cases e
            refine .inl ⟨has, get, rfl, k1, ?_, ?_⟩
            · intro p hp
              rcases List.mem_append.1 hp with hp | hp
              · exact p1 p hp
              · exact p2 p hp
            · intro i hi
              rcases List.mem_append.1 hi with hi | hi
              · exact i1 i hi
              · exact i2 i hi
          · cases e
        · rcases hrest with ⟨has', get', e, _⟩ | ⟨xs', e, p2, i2⟩
          · cases e
          · cases e
            refine .inr ⟨xs, rfl, by simp [p1, p2], ?_⟩
            intro i hi
            rcases List.mem_append.1 hi with hi | hi
            · exact i1 i hi
            · exact i2 i hi
      · cases hm
    · cases hm

include W in
theorem intern_sound {s : Shape} {v : V} (h : InShape C v s) : InShape C v (C.store.intern s) := by
  rcases h with ⟨has, get, rfl, k, p, i⟩ | ⟨xs, rfl, p, i⟩
  · have := W.intern s has get p i
    exact .inl ⟨has, get, rfl, k, this.1, this.2⟩
  · have := W.internElements s p
    exact .inr ⟨xs, rfl, this.1, fun j hj ha x hx => this.2 x (fun i' hi' ha' => i i' hi' ha' x hx) j hj ha⟩

include W in
/-- Tuples element by element. -/
theorem tuple_sound {m : Mode} : ∀ {es ds : List Elem}, (∀ e ∈ es, e.rest = false) →
    (∀ e ∈ ds, e.rest = false) → es.length ≤ ds.length →
    Holds (Sub C) (tupleLoop C.store m es ds) → ∀ {xs : List V}, xs.length ≤ es.length →
    (∀ (i : Nat) e, es[i]? = some e → e.optional = false → i < xs.length) →
    (∀ (i : Nat) e x, es[i]? = some e → xs[i]? = some x →
      (e.optional = true → x ≠ V.undef) → Mem C x e.ty) →
    xs.length ≤ ds.length ∧
    (∀ (i : Nat) e, ds[i]? = some e → e.optional = false → i < xs.length) ∧
    (∀ (i : Nat) e x, ds[i]? = some e → xs[i]? = some x →
      (e.optional = true → x ≠ V.undef) → Mem C x e.ty)
  | [], [], _, _, _, _, xs, hx, _, _ => ⟨hx, fun i e h => (by simp at h), fun i e x h => (by simp at h)⟩
  | _ :: _, [], _, _, hl, _, _, _, _, _ => by simp at hl
  | [], d :: ds, he, hd, _, h, xs, hx, _, _ => by
    obtain rfl : xs = [] := List.length_eq_zero_iff.1 (by simpa using hx)
    rw [tupleLoop] at h
    simp only [hd d (by simp), Bool.false_or] at h
    split at h
    · rename_i ho
      have ih := tuple_sound (es := []) (ds := ds) (by simp) (fun e he => hd e (List.mem_cons_of_mem _ he))
        (by simp) h (xs := []) (by simp) (by simp) (by simp)
      refine ⟨by simp, ?_, by simp⟩
      intro i e hi hopt
      cases i with
      | zero => simp only [List.getElem?_cons_zero, Option.some.injEq] at hi; subst hi; simp [ho] at hopt
      | succ i => exact absurd (ih.2.1 i e (by simpa using hi) hopt) (by simp)
    · exact h.elim
  | s :: ss, d :: ds, he, hd, hl, h, xs, hx, h1, h2 => by
    rw [tupleLoop] at h
    simp only [hd d (by simp), he s (by simp), Bool.false_eq_true, if_false] at h
    split at h
    · exact h.elim
    rename_i hopt
    split at h
    · exact h.elim
    obtain ⟨hq, hrest⟩ := h
    have he' : ∀ e ∈ ss, e.rest = false := fun e h => he e (List.mem_cons_of_mem _ h)
    have hd' : ∀ e ∈ ds, e.rest = false := fun e h => hd e (List.mem_cons_of_mem _ h)
    cases xs with
    | nil =>
      have ih := tuple_sound (es := ss) (ds := ds) he' hd' (by simpa using hl) hrest (xs := [])
        (by simp) (fun i e hi ho => absurd (h1 (i + 1) e (by simpa using hi) ho) (by simp)) (by simp)
      refine ⟨by simp, ?_, by simp⟩
      intro i e hi ho
      cases i with
      | zero =>
        simp only [List.getElem?_cons_zero, Option.some.injEq] at hi
        subst hi
        have : s.optional = false := by cases hs : s.optional <;> simp_all
        exact absurd (h1 0 s (by simp) this) (by simp)
      | succ i => exact absurd (ih.2.1 i e (by simpa using hi) ho) (by simp)
    | cons x xs =>
      have ih := tuple_sound (es := ss) (ds := ds) he' hd' (by simpa using hl) hrest (xs := xs)
        (by simpa using hx)
        (fun i e hi ho => by have := h1 (i + 1) e (by simpa using hi) ho; simpa using this)
        (fun i e y hi hy => h2 (i + 1) e y (by simpa using hi) (by simpa using hy))
      refine ⟨by simpa using ih.1, ?_, ?_⟩
      · intro i e hi ho
        cases i with
        | zero => simp
        | succ i => have := ih.2.1 i e (by simpa using hi) ho; simpa using this
      · intro i e y hi hy hc
        cases i with
        | zero =>
          simp only [List.getElem?_cons_zero, Option.some.injEq] at hi hy
          subst hi
          subst hy
          have hv : Mem C x (optElem C.store s.ty s.optional) := by
            rw [mem_optElem W]
            by_cases hu : s.optional = true ∧ x = .undef
            · exact .inr hu
            · exact .inl (h2 0 s x (by simp) (by simp) (fun a b => hu ⟨a, b⟩))
          rcases (mem_optElem W).1 (hq x hv) with h | ⟨h3, h4⟩
          · exact h
          · exact absurd h4 (hc h3)
        | succ i => exact ih.2.2 i e y (by simpa using hi) (by simpa using hy) hc

/-! ## The special cases -/

include W hnull in
theorem special_sound {a b : Id} (hf : Fair C a b)
    (h : special C.store C.opts (C.store.kind a) (C.store.kind b) = some true) :
    Sub C a b {} := by
  intro v hv
  obtain ⟨ra, rb, hf⟩ := hf
  by_cases hs : Simple (C.store.kind a) = true ∧ Simple (C.store.kind b) = true
  · have := mem_simple hv hs.1
    exact .simple (simpleRule_sound (S := C.store) hnull hs.1 hs.2 (by simp [simpleRule, h]) _ this)
  cases hb : C.store.kind b with
  | unknown => exact .simple (by rw [hb]; cases v <;> trivial)
  | emptyObject =>
    refine .simple ?_
    rw [hb] at hf hs ⊢
    cases ha : C.store.kind a with
    | array e r => obtain ⟨xs, rfl, _⟩ := mem_array hv ha; simp [V.head, Has]
    | tuple es => obtain ⟨xs, rfl, _⟩ := mem_tuple hv ha; simp [V.head, Has]
    | object s =>
      rcases mem_object hv ha with ⟨_, _, rfl, _⟩ | ⟨_, rfl, _⟩ <;> simp [V.head, Has]
    | template p => obtain ⟨n, rfl, _⟩ := mem_template hv ha; simp [V.head, Has]
    | _ => simp_all [Simple, Readable]
  | _ =>
    cases ha : C.store.kind a with
    | never =>
      have := mem_simple hv (by rw [ha]; rfl)
      rw [ha] at this
      revert this
      cases v.head <;> simp [Has]
    | template p =>
      obtain ⟨n, rfl, hn⟩ := mem_template hv ha
      simp_all [special, Simple, Readable]
      try first
        | exact .template hb (W.templates _ _ _ h hn)
        | exact .simple (by rw [hb]; trivial)
    | strLit n =>
      have := mem_simple hv (by rw [ha]; rfl)
      rw [ha] at this
      simp_all [special, Simple, Readable]
      try
        cases v <;> simp [V.head, Has] at this
        subst this
        exact .template hb h
    | _ => simp_all [special, Simple, Readable]

/-! ## One unfolding of the rules -/

include W hidx in
theorem structural_sound {a b : Id} {m : Mode} (hf : Fair C a b)
    (h : Holds (Sub C)
      (structural C.store C.opts C.limits.keyDepth (C.store.kind a) (C.store.kind b) m)) :
    Sub C a b m := by
  intro v hv
  obtain ⟨ra, rb, hf⟩ := hf
  cases ha : C.store.kind a with
  | boolLit x =>
    have := mem_simple hv (by rw [ha]; rfl)
    cases hb : C.store.kind b <;> simp [ha, hb, structural, Holds, holds_ofBool] at h
    subst h
    exact .simple (by rw [hb]; rw [ha] at this; exact this)
  | numLit x =>
    have := mem_simple hv (by rw [ha]; rfl)
    cases hb : C.store.kind b <;> simp [ha, hb, structural, Holds, holds_ofBool] at h
    subst h
    exact .simple (by rw [hb]; rw [ha] at this; exact this)
  | strLit x =>
    have := mem_simple hv (by rw [ha]; rfl)
    cases hb : C.store.kind b <;> simp [ha, hb, structural, Holds, holds_ofBool] at h
    subst h
    exact .simple (by rw [hb]; rw [ha] at this; exact this)
  | bigLit x =>
    have := mem_simple hv (by rw [ha]; rfl)
    cases hb : C.store.kind b <;> simp [ha, hb, structural, Holds, holds_ofBool] at h
    subst h
    exact .simple (by rw [hb]; rw [ha] at this; exact this)
  | array e r =>
    obtain ⟨xs, rfl, hx⟩ := mem_array hv ha
    cases hb : C.store.kind b with
    | array e' r' =>
      simp only [ha, hb, structural] at h
      split at h
      · exact h.elim
      · exact .array hb fun x hm => h x (hx x hm)
    | object d =>
      simp only [ha, hb] at hf
      rw [hb] at rb
      simp only [Readable, Bool.and_eq_true, List.isEmpty_iff] at rb
      refine .elements hb hf.1 rb.1 rb.2 ?_
      simp only [ha, hb, structural] at h
      split at h
      · rename_i he
        simp only [Shape.empty, Bool.and_eq_true, List.isEmpty_iff] at he
        simp [he.2]
      · split at h
        · rename_i i hi
          have hi := (List.mem_filter.1 (minBy_mem hi)).1
          intro j hj _ x hm
          obtain rfl : j = i := by
            rcases hd : d.indexers with _ | ⟨y, _ | ⟨z, zs⟩⟩
            · simp [hd] at hj
            · simp [hd] at hi hj; rw [hi, hj]
            · simp [hd] at hf
          exact h x (hx x hm)
        · exact h.elim
    | tuple d =>
      rw [hb] at rb
      simp only [Readable, List.all_eq_true, Bool.not_eq_true'] at rb
      have : d.any (·.rest) = false := by
        rw [List.any_eq_false]; intro x hx'; simp [rb x hx']
      simp only [ha, hb, structural, arrayToTuple, this] at h
      split at h <;> exact h.elim
    | _ => simp [ha, hb, structural, Holds] at h
  | tuple es =>
    obtain ⟨xs, rfl, h1, h2, h3⟩ := mem_tuple hv ha
    rw [ha] at ra
    simp only [Readable, List.all_eq_true, Bool.not_eq_true'] at ra
    cases hb : C.store.kind b with
    | object d =>
      simp only [ha, hb, structural, holds_ofBool, Shape.empty, Bool.and_eq_true,
        List.isEmpty_iff] at h
      exact .elements hb h.1.1.1 h.1.1.2 h.1.2 (by simp [h.2])
    | tuple ds =>
      simp only [ha, hb] at hf
      rw [hb] at rb
      simp only [Readable, List.all_eq_true, Bool.not_eq_true'] at rb
      simp only [ha, hb, structural, tuple] at h
      have hl : Holds (Sub C) (tupleLoop C.store m es ds) := by
        revert h
        repeat' split
        all_goals first | exact fun h => h.elim | exact fun h => h | skip
      have := tuple_sound W ra rb hf hl h1 h2 h3
      exact .tuple hb rb this.1 this.2.1 this.2.2
    | array e' r' =>
      simp only [ha, hb, structural, tupleToArray] at h
      split at h
      · exact h.elim
      rw [holds_all] at h
      refine .array hb fun x hx => ?_
      obtain ⟨i, hi⟩ := List.mem_iff_getElem?.1 hx
      have hi' : i < es.length := by
        have := (List.getElem?_eq_some_iff.1 hi).1
        omega
      have he : es[i]? = some es[i] := List.getElem?_eq_getElem hi'
      have := h _ (List.mem_map_of_mem (List.getElem_mem hi'))
      simp only [ra _ (List.getElem_mem hi'), Bool.false_eq_true, if_false] at this
      apply this x
      rw [mem_optElem W]
      by_cases hu : es[i].optional = true ∧ x = .undef
      · exact .inr hu
      · exact .inl (h3 i _ x he hi (fun a b => hu ⟨a, b⟩))
    | _ => simp [ha, hb, structural, Holds] at h
  | callable c => simp [ha, Readable] at ra
  | object s =>
    cases hb : C.store.kind b with
    | object d =>
      simp only [ha, hb] at hf
      simp only [ha, hb, structural] at h
      exact mem_of_shape hb rb (object_sound W hidx hf h (mem_object hv ha))
    | callable c => simp [hb, Readable] at rb
    | _ => simp [ha, hb, structural, Holds] at h
  | _ =>
    simp [ha, structural, Holds] at h

include W hidx in
theorem composite_sound {a b : Id} {m : Mode} (hf : Fair C a b)
    (h : Holds (Sub C)
      (composite C.store C.opts C.limits.keyDepth a b (C.store.kind a) (C.store.kind b) m)) :
    Sub C a b m := by
  have hra := hf.1
  have hrb := hf.2.1
  unfold composite at h
  split at h
  · rename_i e; rw [e] at hra; cases hra
  · rename_i e _; rw [e] at hrb; cases hrb
  · rename_i ms _ e _
    intro v hv
    obtain ⟨t, ht, hv⟩ := mem_union hv e
    rw [holds_all] at h
    exact h _ (List.mem_map_of_mem ht) v hv
  · rename_i ms e _ _
    intro v hv
    rw [holds_any] at h
    obtain ⟨g, hg, h⟩ := h
    obtain ⟨t, ht, rfl⟩ := List.mem_map.1 hg
    exact .union e ht (h v hv)
  · rename_i ms e _ _
    intro v hv
    rw [holds_all] at h
    exact .inter e fun t ht => h _ (List.mem_map_of_mem ht) v hv
  · rename_i ms d ea eb
    intro v hv
    have hall := mem_inter hv ea
    split at h
    · rename_i s hs
      have hfair := hf.2.2
      simp only [ea, eb] at hfair
      exact mem_of_shape eb hrb
        (object_sound W hidx (hfair.2 s hs) h (intern_sound W (merge_sound hs hfair.1 hall)))
    · rw [holds_any] at h
      obtain ⟨g, hg, h⟩ := h
      obtain ⟨t, ht, rfl⟩ := List.mem_map.1 hg
      exact h v (hall t ht)
  · rename_i ms ea _ _ _ _
    intro v hv
    have hall := mem_inter hv ea
    rw [holds_any] at h
    obtain ⟨g, hg, h⟩ := h
    obtain ⟨t, ht, rfl⟩ := List.mem_map.1 hg
    exact h v (hall t ht)
  · exact structural_sound W hidx hf h

include W hidx in
theorem expanded_sound {a b : Id} {m : Mode} (hf : Fair C a b)
    (h : Holds (Sub C)
      (expanded C.store C.opts C.limits.keyDepth a b (C.store.kind a) (C.store.kind b) m)) :
    Sub C a b m := by
  have target : Holds (Sub C) (match C.store.kind b with
      | .ref d args =>
        match C.store.expand d args with
        | some b' => if b' ≠ b then .ask 0 a b' m
            else composite C.store C.opts C.limits.keyDepth a b (C.store.kind a) (C.store.kind b) m
        | none => composite C.store C.opts C.limits.keyDepth a b (C.store.kind a) (C.store.kind b) m
      | _ => composite C.store C.opts C.limits.keyDepth a b (C.store.kind a) (C.store.kind b) m) →
      Sub C a b m := by
    intro h
    split at h
    · rename_i d args e
      split at h
      · rename_i b' e'
        split at h
        · exact fun v hv => .ref e e' (h v hv)
        · exact composite_sound W hidx hf h
      · exact composite_sound W hidx hf h
    · exact composite_sound W hidx hf h
  unfold expanded at h
  simp only at h
  split at h
  · rename_i d args e
    split at h
    · rename_i a' e'
      split at h
      · intro v hv
        obtain ⟨t, ht, hv⟩ := mem_ref hv e
        rw [e'] at ht
        cases ht
        exact h v hv
      · exact target h
    · exact target h
  · exact target h

include W hidx hnull in
/-- If the questions of the rules are answered rightly, so is the question. -/
theorem rules_sound {a b : Id} {m : Mode} (hf : Fair C a b) (h : Holds (Sub C) (rules C a b m)) :
    Sub C a b m := by
  rw [rules, assignable] at h
  split at h
  · rename_i e
    subst e
    exact fun v hv => hv
  have hvar : byVariance C.store (C.store.kind a) (C.store.kind b) m = ([], false) := by
    unfold byVariance
    split
    · rename_i ea eb
      have := hf.2.2
      simp only [ea, eb] at this
      simp [this]
    · rfl
  simp only [hvar, Bool.false_eq_true, if_false] at h
  have h := h.2
  split at h
  · intro v hv
    rw [← W.normalize]
    exact h v ((W.normalize v a).2 hv)
  split at h
  · rename_i r hr
    rw [holds_ofBool] at h
    subst h
    exact special_sound W hnull hf hr
  · exact expanded_sound W hidx hf h

theorem holds_questions {R R' : Id → Id → Mode → Prop} : ∀ {g : Goal}, Holds R g →
    (∀ i x y k, (i, x, y, k) ∈ g.questions → R x y k → R' x y k) → Holds R' g
  | .yes, _, _ => trivial
  | .no, h, _ => h
  | .ask i a b m, h, hq => hq i a b m (by simp [Goal.questions]) h
  | .and g g', h, hq =>
    ⟨holds_questions h.1 fun i x y k hm => hq i x y k (by simp [Goal.questions, hm]),
     holds_questions h.2 fun i x y k hm => hq i x y k (by simp [Goal.questions, hm])⟩
  | .or g g', h, hq => h.elim
    (fun h => .inl (holds_questions h fun i x y k hm => hq i x y k (by simp [Goal.questions, hm])))
    (fun h => .inr (holds_questions h fun i x y k hm => hq i x y k (by simp [Goal.questions, hm])))

theorem Reached.first {a b : Id} {m : Mode} {i x y k} {x' y' k'}
    (hq : (i, x, y, k) ∈ (rules C a b m).questions) (h : Reached C x y k x' y' k') :
    Reached C a b m x' y' k' := by
  induction h with
  | refl => exact .step .refl hq
  | step _ hq' ih => exact .step ih hq'

include W hidx hnull in
theorem related_sound {n : Nat} {a b : Id} {m : Mode} (hw : Within C n a b m)
    (hf : ∀ x y k, Reached C a b m x y k → Fair C x y) (h : Related C a b m) : Sub C a b m := by
  induction hw with
  | mk _ _ ih =>
    refine rules_sound W hidx hnull (hf _ _ _ .refl) (holds_questions h.holds ?_)
    intro i x y k hq hr
    exact ih i x y k hq (fun x' y' k' hr' => hf _ _ _ (hr'.first hq)) hr

end

end Verif.Relate
