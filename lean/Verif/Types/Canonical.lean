import Verif.Types.Meaning
/-!
# What the result of `union` and `intersection` depends on
-/

namespace Verif.Types
open Store
open Verif.Harness

section
variable {st st' : Store} {H : Hashes}

theorem hasKind_congr {k : Kind} {l l' : List Nat} (h : ∀ x, x ∈ l ↔ x ∈ l') :
    st.hasKind k l = st.hasKind k l' := by
  rw [Bool.eq_iff_iff, hasKind_iff, hasKind_iff]
  simp only [h]

theorem hasKind_append {k : Kind} (l l' : List Nat) :
    st.hasKind k (l ++ l') = (st.hasKind k l || st.hasKind k l') := by
  unfold Store.hasKind; rw [List.any_append]

theorem flatMap_mem_congr {f : Nat → List Nat} {l l' : List Nat} (h : ∀ x, x ∈ l ↔ x ∈ l') (x : Nat) :
    x ∈ l.flatMap f ↔ x ∈ l'.flatMap f := by
  simp only [List.mem_flatMap, h]

theorem unionFinish_congr {l l' : List Nat}
    (h : ∀ x, x ∈ l ∧ st.unionKeeps l x = true ↔ x ∈ l' ∧ st.unionKeeps l' x = true) :
    unionFinish H st l = unionFinish H st l' := by
  unfold unionFinish
  rw [sortDedup_congr (l₁ := l.filter (st.unionKeeps l)) (l₂ := l'.filter (st.unionKeeps l'))]
  intro x; rw [List.mem_filter, List.mem_filter]; exact h x

theorem interFinish_congr {l l' : List Nat}
    (h : ∀ x, x ∈ l ∧ st.interKeeps l x = true ↔ x ∈ l' ∧ st.interKeeps l' x = true) :
    interFinish H st l = interFinish H st l' := by
  have hm : ∀ x, x ∈ l.filter (st.interKeeps l) ↔ x ∈ l'.filter (st.interKeeps l') := by
    intro x; rw [List.mem_filter, List.mem_filter]; exact h x
  have hs := sortDedup_congr (st := st) hm
  unfold interFinish
  generalize l.filter (st.interKeeps l) = a at hm hs
  generalize l'.filter (st.interKeeps l') = b at hm hs
  cases a with
  | nil =>
    cases b with
    | nil => rfl
    | cons y ys => exact absurd ((hm y).2 (List.mem_cons_self ..)) List.not_mem_nil
  | cons x xs =>
    cases b with
    | nil => exact absurd ((hm x).1 (List.mem_cons_self ..)) List.not_mem_nil
    | cons y ys => simp only; rw [hs]

theorem unionOf_congr {l l' : List Nat} (h : ∀ x, x ∈ l ↔ x ∈ l') : unionOf H st l = unionOf H st l' := by
  unfold unionOf
  rw [hasKind_congr h, hasKind_congr h]
  have hf := flatMap_mem_congr (f := uParts st) h
  rw [unionFinish_congr (l := l.flatMap (uParts st)) (l' := l'.flatMap (uParts st))
    fun x => by rw [hf x, unionKeeps_congr hf]]

theorem interOf_congr {l l' : List Nat} (h : ∀ x, x ∈ l ↔ x ∈ l') : interOf H st l = interOf H st l' := by
  unfold interOf
  rw [hasKind_congr h, hasKind_congr h]
  have hf := flatMap_mem_congr (f := iParts st) h
  rw [interFinish_congr (l := l.flatMap (iParts st)) (l' := l'.flatMap (iParts st))
    fun x => by rw [hf x, interKeeps_congr hf]]

/-! ## Later stores -/

theorem uParts_mono (hle : Le st st') {m : Nat} (hm : (st.kind? m).isSome) :
    uParts st' m = uParts st m := by
  unfold uParts; rw [hle.kind hm]

theorem iParts_mono (hle : Le st st') {m : Nat} (hm : (st.kind? m).isSome) :
    iParts st' m = iParts st m := by
  unfold iParts; rw [hle.kind hm]

theorem flatMap_congr' {f g : Nat → List Nat} : ∀ {l : List Nat}, (∀ x ∈ l, f x = g x) →
    l.flatMap f = l.flatMap g
  | [], _ => rfl
  | a :: l, h => by
    rw [List.flatMap_cons, List.flatMap_cons, h a (List.mem_cons_self ..),
      flatMap_congr' fun x hx => h x (List.mem_cons_of_mem _ hx)]

theorem sortDedup_mono (hle : Le st st') {r : Nat → Nat} (hc : Closed st r) {l : List Nat}
    (hk : TypesKnown st l) : st'.sortDedup l = st.sortDedup l := by
  refine sorted_ext (tp_typeCmp st') (typeCmp_eq st') (sortDedup_sorted _ _) ?_
    fun x => by rw [mem_sortDedup, mem_sortDedup]
  exact sorted_mono hle hc (fun t ht => hk t (mem_sortDedup.1 ht)) (sortDedup_sorted st l)

/-- Interning a kind that is there already. -/
theorem insertType_later (hi' : Core H st') {k : Kind} {i : Nat} (h : st'.kind? i = some k) :
    st'.insertType H k = some (st', i) := insertType_present hi' h

theorem unionFinish_later {st1 : Store} {flat : List Nat} {i : Nat} (hi : Core H st)
    (hk : TypesKnown st flat) (hp : ∀ m ∈ flat, PlainU (st.kind m))
    (h : unionFinish H st flat = some (st1, i)) (hle : Le st st') (hle1 : Le st1 st') (hi' : Core H st') :
    unionFinish H st' flat = some (st', i) := by
  have hres := unionFinish_spec hi hk hp h
  obtain ⟨r, hc⟩ := hi.closed
  have e : st'.sortDedup (flat.filter (st'.unionKeeps flat)) =
      st.sortDedup (flat.filter (st.unionKeeps flat)) := by
    have : flat.filter (st'.unionKeeps flat) = flat.filter (st.unionKeeps flat) :=
      List.filter_congr fun m hm => unionKeeps_mono hle hk (hk m hm)
    rw [this]
    exact sortDedup_mono hle hc fun t ht => hk t (List.mem_filter.1 ht).1
  have hkk : TypesKnown st (st.sortDedup (flat.filter (st.unionKeeps flat))) :=
    fun m hm => hk m (mem_kept.1 hm).1
  unfold unionFinish
  rw [e]
  generalize st.sortDedup (flat.filter (st.unionKeeps flat)) = l at hres hkk ⊢
  cases hres with
  | empty hl h1 h2 => subst hl h1 h2; simp only; rw [hle.prims]
  | one a hl h1 h2 => subst hl h1 h2; rfl
  | bool a b hl ha hb h1 h2 =>
    subst hl h1 h2
    simp only
    rw [isBoolLit_mono hle (hkk a (by simp)), isBoolLit_mono hle (hkk b (by simp)), ha, hb, hle.prims]
    rfl
  | many hu hc1 hle0 hl =>
    have hins := insertType_later hi' (hle1.kind? hl)
    match l, hu, hins with
    | [], hu, _ => have := hu.two; simp at this
    | [_], hu, _ => have := hu.two; simp at this
    | [a, b], hu, hins =>
      simp only
      rw [isBoolLit_mono hle (hkk a (by simp)), isBoolLit_mono hle (hkk b (by simp)),
        hu.notBool a b rfl]
      exact hins
    | a :: b :: c :: l, _, hins => exact hins

theorem interFinish_later {st1 : Store} {flat : List Nat} {i : Nat} (hi : Core H st)
    (hk : TypesKnown st flat) (hp : ∀ m ∈ flat, PlainI (st.kind m))
    (h : interFinish H st flat = some (st1, i)) (hle : Le st st') (hle1 : Le st1 st') (hi' : Core H st') :
    interFinish H st' flat = some (st', i) := by
  have hres := interFinish_spec hi hk hp h
  obtain ⟨r, hc⟩ := hi.closed
  have ef : flat.filter (st'.interKeeps flat) = flat.filter (st.interKeeps flat) :=
      List.filter_congr fun m hm => interKeeps_mono hle hk (hk m hm)
  have e : st'.sortDedup (flat.filter (st.interKeeps flat)) =
      st.sortDedup (flat.filter (st.interKeeps flat)) :=
    sortDedup_mono hle hc fun t ht => hk t (List.mem_filter.1 ht).1
  have hkk : TypesKnown st (st.sortDedup (flat.filter (st.interKeeps flat))) :=
    fun m hm => hk m (mem_kept.1 hm).1
  have hscan := scan_mono hle hkk ⟨0, none, none, none, none⟩
  have hne : flat.filter (st.interKeeps flat) = [] ↔
      st.sortDedup (flat.filter (st.interKeeps flat)) = [] := by
    constructor
    · intro h; rw [h]; rfl
    · intro h
      apply List.eq_nil_iff_forall_not_mem.2
      intro a ha
      exact (List.eq_nil_iff_forall_not_mem.1 h) a (mem_sortDedup.2 ha)
  unfold interFinish
  rw [ef]
  generalize flat.filter (st.interKeeps flat) = fl at hres hkk e hscan hne ⊢
  cases fl with
  | nil =>
    simp only [sortDedup_nil] at hres
    cases hres with
    | empty _ h1 h2 => subst h1 h2; simp only; rw [hle.prims]
    | one a hl _ _ => cases hl
    | clash h2 _ _ _ => simp at h2
    | many hu _ _ _ => have := hu.two; simp at this
  | cons x xs =>
    simp only
    rw [e]
    generalize st.sortDedup (x :: xs) = l at hres hkk hscan hne ⊢
    cases hres with
    | empty hl _ _ => exact absurd (hne.2 hl) (by simp)
    | one a hl h1 h2 => subst hl h1 h2; rfl
    | clash h2 hs e1 e2 =>
      subst e1 e2
      match l, h2 with
      | a :: b :: l, _ => simp only; rw [hscan, hs, hle.prims]
    | many hu hc1 hle0 hl =>
      have hins := insertType_later hi' (hle1.kind? hl)
      have h2 := hu.two
      obtain ⟨s, hs⟩ := Option.isSome_iff_exists.1 hu.scan
      match l, h2 with
      | a :: b :: l, _ => simp only; rw [hscan, hs]; exact hins

theorem union_later {st1 : Store} {ms : List Nat} {i : Nat} (hi : Inv H st) (hk : TypesKnown st ms)
    (h : st.union H ms = some (st1, i)) (hle1 : Le st1 st') (hi' : Core H st') :
    st'.union H ms = some (st', i) := by
  have hle : Le st st' := (union_ok hi hk h).le.trans hle1
  rw [union_eq hi.core hk] at h
  rw [union_eq hi' (hk.mono hle)]
  obtain ⟨hkf, hpf⟩ := flat_known hi.core hk
  unfold unionOf at h ⊢
  rw [hasKind_mono hle hk, hasKind_mono hle hk,
    flatMap_congr' (f := uParts st') (g := uParts st) fun x hx => uParts_mono hle (hk x hx), hle.prims]
  split at h
  · rename_i ha
    simp only [Option.some.injEq, Prod.mk.injEq] at h
    rw [if_pos ha, ← h.2]
  · rename_i ha
    rw [if_neg ha]
    split at h
    · rename_i hu
      simp only [Option.some.injEq, Prod.mk.injEq] at h
      rw [if_pos hu, ← h.2]
    · rename_i hu
      rw [if_neg hu]
      exact unionFinish_later hi.core hkf hpf h hle hle1 hi'

theorem inter_later {st1 : Store} {ms : List Nat} {i : Nat} (hi : Inv H st) (hk : TypesKnown st ms)
    (h : st.intersection H ms = some (st1, i)) (hle1 : Le st1 st') (hi' : Core H st') :
    st'.intersection H ms = some (st', i) := by
  have hle : Le st st' := (inter_ok hi hk h).le.trans hle1
  rw [inter_eq hi.core hk] at h
  rw [inter_eq hi' (hk.mono hle)]
  obtain ⟨hkf, hpf⟩ := flatI_known hi.core hk
  unfold interOf at h ⊢
  rw [hasKind_mono hle hk, hasKind_mono hle hk,
    flatMap_congr' (f := iParts st') (g := iParts st) fun x hx => iParts_mono hle (hk x hx), hle.prims]
  split at h
  · rename_i ha
    simp only [Option.some.injEq, Prod.mk.injEq] at h
    rw [if_pos ha, ← h.2]
  · rename_i ha
    rw [if_neg ha]
    split at h
    · rename_i hu
      simp only [Option.some.injEq, Prod.mk.injEq] at h
      rw [if_pos hu, ← h.2]
    · rename_i hu
      rw [if_neg hu]
      exact interFinish_later hi.core hkf hpf h hle hle1 hi'

/-! ## Nesting -/

/-- The primitive types, which `union` never drops. -/
def IsPrim (k : Kind) : Prop := k = .boolean ∨ k = .number ∨ k = .string ∨ k = .bigint ∨ k = .symbol

theorem unionKeeps_congr' {l l' : List Nat} (h : ∀ k, IsPrim k → st.hasKind k l = st.hasKind k l')
    (m : Nat) : st.unionKeeps l m = st.unionKeeps l' m := by
  unfold Store.unionKeeps
  cases st.kind m <;> simp only
  case boolLit => rw [h .boolean (by simp [IsPrim])]
  case numLit => rw [h .number (by simp [IsPrim])]
  case strLit => rw [h .string (by simp [IsPrim])]
  case template => rw [h .string (by simp [IsPrim])]
  case bigLit => rw [h .bigint (by simp [IsPrim])]
  case uniqueSymbol => rw [h .symbol (by simp [IsPrim])]

theorem keeps_prim {l : List Nat} {m : Nat} (h : IsPrim (st.kind m)) : st.unionKeeps l m = true := by
  unfold Store.unionKeeps
  rcases h with h | h | h | h | h <;> rw [h]

/-- Dropping members of a part first changes nothing. -/
theorem keeps_nested {x y k z : List Nat} (hk : ∀ m, m ∈ k ↔ m ∈ y ∧ st.unionKeeps y m = true)
    (m : Nat) :
    m ∈ x ++ k ++ z ∧ st.unionKeeps (x ++ k ++ z) m = true ↔
      m ∈ x ++ y ++ z ∧ st.unionKeeps (x ++ y ++ z) m = true := by
  have hkind : ∀ q, IsPrim q → st.hasKind q (x ++ k ++ z) = st.hasKind q (x ++ y ++ z) := by
    intro q hq
    rw [Bool.eq_iff_iff, hasKind_iff, hasKind_iff]
    constructor
    · rintro ⟨c, hc, e⟩
      refine ⟨c, ?_, e⟩
      simp only [List.mem_append, hk] at hc ⊢
      grind
    · rintro ⟨c, hc, e⟩
      refine ⟨c, ?_, e⟩
      have := keeps_prim (st := st) (l := y) (m := c) (e ▸ hq)
      simp only [List.mem_append, hk] at hc ⊢
      grind
  rw [unionKeeps_congr' hkind]
  constructor
  · rintro ⟨h1, h2⟩
    refine ⟨?_, h2⟩
    simp only [List.mem_append, hk] at h1 ⊢
    grind
  · rintro ⟨h1, h2⟩
    refine ⟨?_, h2⟩
    have := unionKeeps_sub (l := x ++ y ++ z) (l' := y) (fun c hc => by simp [hc]) h2
    simp only [List.mem_append, hk] at h1 ⊢
    grind

/-- The kinds that make `intersection` drop the primitive type. -/
theorem keepsI_nested {x y k z : List Nat} (hk : ∀ m, m ∈ k ↔ m ∈ y ∧ st.interKeeps y m = true)
    (m : Nat) :
    m ∈ x ++ k ++ z ∧ st.interKeeps (x ++ k ++ z) m = true ↔
      m ∈ x ++ y ++ z ∧ st.interKeeps (x ++ y ++ z) m = true := by
  have hlit : ∀ (p : Kind → Bool), (∀ q, p q = true → ∀ l c, st.kind c = q → st.interKeeps l c = true) →
      st.hasLit p (x ++ k ++ z) = st.hasLit p (x ++ y ++ z) := by
    intro p hp
    rw [Bool.eq_iff_iff, hasLit_iff, hasLit_iff]
    constructor
    · rintro ⟨c, hc, e⟩
      refine ⟨c, ?_, e⟩
      simp only [List.mem_append, hk] at hc ⊢
      grind
    · rintro ⟨c, hc, e⟩
      refine ⟨c, ?_, e⟩
      have := hp _ e y c rfl
      simp only [List.mem_append, hk] at hc ⊢
      grind
  have hkeep : ∀ c, st.interKeeps (x ++ k ++ z) c = st.interKeeps (x ++ y ++ z) c := by
    intro c
    unfold Store.interKeeps
    cases st.kind c <;> simp only
    all_goals
      rw [hlit]
      try rw [hlit]
    all_goals
      intro q hq l d hd
      cases q <;> simp only [reduceCtorEq] at hq
      unfold Store.interKeeps
      rw [hd]
  rw [hkeep]
  constructor
  · rintro ⟨h1, h2⟩
    refine ⟨?_, h2⟩
    simp only [List.mem_append, hk] at h1 ⊢
    grind
  · rintro ⟨h1, h2⟩
    refine ⟨?_, h2⟩
    have := interKeeps_sub (l := x ++ y ++ z) (l' := y) (fun c hc => by simp [hc]) h2
    simp only [List.mem_append, hk] at h1 ⊢
    grind

theorem hasKind_single {k : Kind} {i : Nat} (h : (st.kind? i).isSome) :
    st.hasKind k [i] = true ↔ st.kind? i = some k := by
  rw [hasKind_iff, kind?_of_known h]
  simp

theorem kinds_nested {k : Kind} {a y b : List Nat} {i : Nat} (hi : (st.kind? i).isSome)
    (h1 : st.kind? i ≠ some k) (h2 : st.hasKind k y = false) :
    st.hasKind k (a ++ [i] ++ b) = st.hasKind k (a ++ y ++ b) := by
  rw [hasKind_append, hasKind_append, hasKind_append, hasKind_append, h2]
  have : st.hasKind k [i] = false := by
    cases e : st.hasKind k [i] with
    | false => rfl
    | true => exact absurd ((hasKind_single hi).1 e) h1
  rw [this]

theorem hasKind_mid {k : Kind} {a y b : List Nat} (h : st.hasKind k y = true) :
    st.hasKind k (a ++ y ++ b) = true := by
  rw [hasKind_append, hasKind_append, h]; simp

/-- Nesting a union in a union. -/
theorem unionOf_nested {a inner b : List Nat} {i : Nat} (hi : Inv H st) (hk : TypesKnown st inner)
    (h : unionOf H st inner = some (st, i))
    (hb : st.kind? i = some .boolean → ∃ m ∈ inner, st.kind? m = some .boolean) :
    unionOf H st (a ++ [i] ++ b) = unionOf H st (a ++ inner ++ b) := by
  unfold unionOf at h
  split at h
  · rename_i ha
    simp only [Option.some.injEq, Prod.mk.injEq, true_and] at h
    subst h
    unfold unionOf
    rw [hasKind_mid ha, hasKind_mid ((hasKind_single (by rw [hi.prims.any]; rfl)).2 hi.prims.any)]
    rfl
  · rename_i ha
    split at h
    · rename_i hu
      simp only [Option.some.injEq, Prod.mk.injEq, true_and] at h
      subst h
      unfold unionOf
      have hs : (st.kind? st.prims.unknown).isSome := by rw [hi.prims.unknown]; rfl
      rw [hasKind_mid hu, hasKind_mid ((hasKind_single hs).2 hi.prims.unknown),
        kinds_nested hs (k := .any) (by rw [hi.prims.unknown]; simp) (by simpa using ha)]
      rfl
    · rename_i hu
      obtain ⟨hkf, hpf⟩ := flat_known hi.core hk
      have hres := unionFinish_spec hi.core hkf hpf h
      have main : ∀ (k : Kind), st.kind? i = some k → k ≠ .any → k ≠ .unknown →
          (∀ m, m ∈ uParts st i ↔
            m ∈ inner.flatMap (uParts st) ∧ st.unionKeeps (inner.flatMap (uParts st)) m = true) →
          unionOf H st (a ++ [i] ++ b) = unionOf H st (a ++ inner ++ b) := by
        intro k hk1 h1 h2 hm
        have hs : (st.kind? i).isSome := by rw [hk1]; rfl
        unfold unionOf
        rw [kinds_nested hs (k := .any) (by rw [hk1]; simpa using h1) (by simpa using ha),
          kinds_nested hs (k := .unknown) (by rw [hk1]; simpa using h2) (by simpa using hu)]
        simp only [List.flatMap_append, List.flatMap_cons, List.flatMap_nil, List.append_nil]
        rw [unionFinish_congr (keeps_nested hm)]
      have hkept : ∀ m, m ∈ st.sortDedup ((inner.flatMap (uParts st)).filter
          (st.unionKeeps (inner.flatMap (uParts st)))) ↔ _ := fun m => mem_kept
      generalize st.sortDedup ((inner.flatMap (uParts st)).filter
          (st.unionKeeps (inner.flatMap (uParts st)))) = l at hres hkept
      cases hres with
      | empty hl _ h2 =>
        subst hl h2
        refine main _ hi.prims.never (by simp) (by simp) fun m => ?_
        rw [← hkept]
        unfold uParts
        rw [kind_of_kind? hi.prims.never]
      | one c hl _ h2 =>
        subst hl h2
        have hc := ((hkept i).1 (by simp)).1
        have hp := hpf i hc
        refine main _ (kind?_of_known (hkf i hc)) hp.1 hp.2.1 fun m => ?_
        rw [← hkept, uParts_plain hp]
      | bool c d hl hc hd _ h2 =>
        subst hl h2
        obtain ⟨m, hm, hmk⟩ := hb hi.prims.boolean
        exfalso
        have hmk' := kind_of_kind? hmk
        have hmf : m ∈ inner.flatMap (uParts st) :=
          List.mem_flatMap.2 ⟨m, hm, by unfold uParts; rw [hmk']; simp⟩
        have := (hkept m).2 ⟨hmf, keeps_prim (by rw [hmk']; simp [IsPrim])⟩
        have hnb : st.isBoolLit m = false := by unfold Store.isBoolLit; rw [hmk']
        rcases List.mem_cons.1 this with rfl | hmem
        · rw [hnb] at hc; cases hc
        · rw [List.mem_singleton.1 hmem] at hnb; rw [hnb] at hd; cases hd
      | many hu' hc hle hl =>
        refine main _ hl (by simp) (by simp) fun m => ?_
        rw [← hkept]
        unfold uParts
        rw [kind_of_kind? hl]

/-- Two members that exclude each other go on doing so in a longer list. -/
theorem clash_up {y z : List Nat} (hyz : ∀ m ∈ y, m ∈ z)
    (h : ∃ c ∈ y, ∃ d ∈ y, Apart st c d) : interFinish H st z = some (st, st.prims.never) := by
  have rep : ∀ m ∈ z, ∃ c ∈ z, st.interKeeps z c = true ∧ fam (st.kind c) = fam (st.kind m) ∧
      (IsLit (st.kind m) → c = m) := by
    intro m hm
    cases hkeep : st.interKeeps z m with
    | true => exact ⟨m, hm, hkeep, rfl, fun _ => rfl⟩
    | false =>
      obtain ⟨c, h1, h2, h3, h4, _⟩ := keptI hkeep
      exact ⟨c, h1, h2, h3, fun h => absurd h h4⟩
  obtain ⟨c, hc, d, hd, hap⟩ := h
  obtain ⟨c', c1, c2, c3, c4⟩ := rep c (hyz c hc)
  obtain ⟨d', d1, d2, d3, d4⟩ := rep d (hyz d hd)
  have hap' : Apart st c' d' := by
    rcases hap with ⟨h1, h2, h3⟩ | ⟨h1, h2, h3, h4⟩
    · exact .inl ⟨c3 ▸ h1, d3 ▸ h2, c3 ▸ d3 ▸ h3⟩
    · rw [c4 h1, d4 h2]; exact .inr ⟨h1, h2, h3, h4⟩
  have hne : c' ≠ d' := by rintro rfl; exact apart_irrefl hap'
  have m1 : c' ∈ z.filter (st.interKeeps z) := List.mem_filter.2 ⟨c1, c2⟩
  have m2 : d' ∈ z.filter (st.interKeeps z) := List.mem_filter.2 ⟨d1, d2⟩
  unfold interFinish
  generalize z.filter (st.interKeeps z) = f at m1 m2
  cases f with
  | nil => exact absurd m1 List.not_mem_nil
  | cons x xs =>
    simp only
    have n1 := mem_sortDedup (st := st) |>.2 m1
    have n2 := mem_sortDedup (st := st) |>.2 m2
    generalize st.sortDedup (x :: xs) = l at n1 n2
    have hs := scan_none (st := st) (l := l) |>.2 ⟨c', n1, d', n2, hap'⟩
    match l, n1, n2, hs with
    | [], n1, _, _ => exact absurd n1 List.not_mem_nil
    | [e], n1, n2, _ =>
      exact absurd ((List.mem_singleton.1 n1).trans (List.mem_singleton.1 n2).symm) hne
    | a :: b :: l, _, _, hs => simp only; rw [hs]

/-- Nesting an intersection in an intersection. -/
theorem interOf_nested {a inner b : List Nat} {i : Nat} (hi : Inv H st) (hk : TypesKnown st inner)
    (h : interOf H st inner = some (st, i))
    (hb : st.kind? i = some .never → st.hasKind .any (a ++ inner ++ b) = false) :
    interOf H st (a ++ [i] ++ b) = interOf H st (a ++ inner ++ b) := by
  unfold interOf at h
  split at h
  · rename_i ha
    simp only [Option.some.injEq, Prod.mk.injEq, true_and] at h
    subst h
    unfold interOf
    rw [hasKind_mid ha, hasKind_mid ((hasKind_single (by rw [hi.prims.never]; rfl)).2 hi.prims.never)]
    rfl
  · rename_i ha
    split at h
    · rename_i hu
      simp only [Option.some.injEq, Prod.mk.injEq, true_and] at h
      subst h
      unfold interOf
      have hs : (st.kind? st.prims.any).isSome := by rw [hi.prims.any]; rfl
      rw [hasKind_mid hu, hasKind_mid ((hasKind_single hs).2 hi.prims.any),
        kinds_nested hs (k := .never) (by rw [hi.prims.any]; simp) (by simpa using ha)]
      rfl
    · rename_i hu
      obtain ⟨hkf, hpf⟩ := flatI_known hi.core hk
      have hres := interFinish_spec hi.core hkf hpf h
      have main : ∀ (k : Kind), st.kind? i = some k → k ≠ .never → k ≠ .any →
          (∀ m, m ∈ iParts st i ↔
            m ∈ inner.flatMap (iParts st) ∧ st.interKeeps (inner.flatMap (iParts st)) m = true) →
          interOf H st (a ++ [i] ++ b) = interOf H st (a ++ inner ++ b) := by
        intro k hk1 h1 h2 hm
        have hs : (st.kind? i).isSome := by rw [hk1]; rfl
        unfold interOf
        rw [kinds_nested hs (k := .never) (by rw [hk1]; simpa using h1) (by simpa using ha),
          kinds_nested hs (k := .any) (by rw [hk1]; simpa using h2) (by simpa using hu)]
        simp only [List.flatMap_append, List.flatMap_cons, List.flatMap_nil, List.append_nil]
        rw [interFinish_congr (keepsI_nested hm)]
      have hkept : ∀ m, m ∈ st.sortDedup ((inner.flatMap (iParts st)).filter
          (st.interKeeps (inner.flatMap (iParts st)))) ↔ _ := fun m => mem_kept
      generalize st.sortDedup ((inner.flatMap (iParts st)).filter
          (st.interKeeps (inner.flatMap (iParts st)))) = l at hres hkept
      cases hres with
      | empty hl _ h2 =>
        subst hl h2
        refine main _ hi.prims.unknown (by simp) (by simp) fun m => ?_
        rw [← hkept]
        unfold iParts
        rw [kind_of_kind? hi.prims.unknown]
      | one c hl _ h2 =>
        subst hl h2
        have hc := ((hkept i).1 (by simp)).1
        have hp := hpf i hc
        refine main _ (kind?_of_known (hkf i hc)) hp.2.2.1 hp.1 fun m => ?_
        rw [← hkept, iParts_plain hp]
      | clash _ hs _ h2 =>
        subst h2
        have hany := hb hi.prims.never
        obtain ⟨c, hc, d, hd, hap⟩ := scan_none.1 hs
        unfold interOf
        rw [hasKind_mid ((hasKind_single (by rw [hi.prims.never]; rfl)).2 hi.prims.never), hany]
        simp only [if_true, Bool.false_eq_true, if_false]
        rw [clash_up (y := l)]
        · simp
        · intro m hm
          have := ((hkept m).1 hm).1
          simp only [List.flatMap_append, List.mem_append]
          exact .inl (.inr this)
        · exact ⟨c, hc, d, hd, hap⟩
      | many hu' hc hle hl =>
        refine main _ hl (by simp) (by simp) fun m => ?_
        rw [← hkept]
        unfold iParts
        rw [kind_of_kind? hl]

end
end Verif.Types
