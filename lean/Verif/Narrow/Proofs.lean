import Verif.Narrow.Spec

/-!
# Proofs about narrowing
-/

namespace Verif.Narrow

variable {K : Tools} {W : World}

theorem not_mem_never {v : V} : ¬ Mem K W v .never := by intro h; cases h

theorem mem_keep {v : V} {a : Ty} {ts : List Ty} :
    (∃ t ∈ keep a ts, Mem K W v t) ↔ Mem K W v a ∨ ∃ t ∈ ts, Mem K W v t := by
  unfold keep
  split
  · simp [not_mem_never]
  · simp

mutual
theorem mem_leaves (th : Bool) (v : V) : ∀ t : Ty,
    Mem K W v t ↔ ∃ l ∈ leaves th t, Mem K W v l
  | .union ms => by
    rw [leaves]
    constructor
    · intro h; cases h with | union hm h => exact (mem_leavesAll th v ms).1 ⟨_, hm, h⟩
    · intro h
      obtain ⟨m, hm, h⟩ := (mem_leavesAll th v ms).2 h
      exact .union hm h
  | .noInfer t => by
    rw [leaves]
    split
    · rw [← mem_leaves th v t]
      exact ⟨fun h => by cases h with | noInfer h => exact h, .noInfer⟩
    · simp
  | .any | .unknown | .never | .void | .null | .undef | .emptyObject | .boolean | .number | .string
  | .bigint | .symbol | .boolLit _ | .numLit _ | .strLit _ | .bigLit _ | .template _ | .array _
  | .tuple _ | .object _ _ _ | .callable | .inter _ | .ref _ | .param _ | .computed _
  | .iteratorReturn | .caseOf _ => by simp [leaves]
theorem mem_leavesAll (th : Bool) (v : V) : ∀ ms : List Ty,
    (∃ m ∈ ms, Mem K W v m) ↔ ∃ l ∈ leavesAll th ms, Mem K W v l
  | [] => by simp [leavesAll]
  | m :: ms => by
    rw [leavesAll]
    simp only [List.mem_cons, List.mem_append, or_and_right, exists_or, exists_eq_left,
      mem_leaves th v m, mem_leavesAll th v ms]
end

mutual
theorem mem_split (hU : UnionOk K W) (th : Bool) (leaf : Ty → Ty × Ty) (v : V) : ∀ t : Ty,
    (Mem K W v (split K th leaf t).1 ↔ ∃ l ∈ leaves th t, Mem K W v (leaf l).1) ∧
    (Mem K W v (split K th leaf t).2 ↔ ∃ l ∈ leaves th t, Mem K W v (leaf l).2)
  | .union ms => by
    rw [leaves, split]
    simp only [hU _ v]
    exact mem_splits hU th leaf v ms
  | .noInfer t => by
    rw [leaves, split]
    split
    · exact mem_split hU th leaf v t
    · simp
  | .any | .unknown | .never | .void | .null | .undef | .emptyObject | .boolean | .number | .string
  | .bigint | .symbol | .boolLit _ | .numLit _ | .strLit _ | .bigLit _ | .template _ | .array _
  | .tuple _ | .object _ _ _ | .callable | .inter _ | .ref _ | .param _ | .computed _
  | .iteratorReturn | .caseOf _ => by simp [leaves, split]
theorem mem_splits (hU : UnionOk K W) (th : Bool) (leaf : Ty → Ty × Ty) (v : V) : ∀ ms : List Ty,
    ((∃ t ∈ (splits K th leaf ms).1, Mem K W v t) ↔ ∃ l ∈ leavesAll th ms, Mem K W v (leaf l).1) ∧
    ((∃ t ∈ (splits K th leaf ms).2, Mem K W v t) ↔ ∃ l ∈ leavesAll th ms, Mem K W v (leaf l).2)
  | [] => by simp [leavesAll, splits]
  | m :: ms => by
    have h1 := mem_split hU th leaf v m
    have h2 := mem_splits hU th leaf v ms
    rw [leavesAll, splits]
    simp only [mem_keep, h1, h2, List.mem_append, or_and_right, exists_or]
    exact ⟨trivial, trivial⟩
end

/-- The part of a pair for an outcome. -/
def side (b : Bool) (p : Ty × Ty) : Ty := if b then p.1 else p.2

theorem mem_side (hU : UnionOk K W) (th : Bool) (leaf : Ty → Ty × Ty) (v : V) (b : Bool) (t : Ty) :
    Mem K W v (side b (split K th leaf t)) ↔ ∃ l ∈ leaves th t, Mem K W v (side b (leaf l)) := by
  cases b
  · exact (mem_split hU th leaf v t).2
  · exact (mem_split hU th leaf v t).1

/-- What holds for the leaves holds for the type. -/
theorem split_keeps (hU : UnionOk K W) {th : Bool} {leaf : Ty → Ty × Ty} {v : V} {b : Bool} {t : Ty}
    (hv : Mem K W v t)
    (h : ∀ l ∈ leaves th t, Mem K W v l → Mem K W v (side b (leaf l))) :
    Mem K W v (side b (split K th leaf t)) := by
  obtain ⟨l, hl, hm⟩ := (mem_leaves th v t).1 hv
  exact (mem_side hU th leaf v b t).2 ⟨l, hl, h l hl hm⟩

theorem split_within (hU : UnionOk K W) {th : Bool} {leaf : Ty → Ty × Ty} {v : V} {b : Bool} {t : Ty}
    (hv : Mem K W v (side b (split K th leaf t)))
    (h : ∀ l ∈ leaves th t, Mem K W v (side b (leaf l)) → Mem K W v l) : Mem K W v t := by
  obtain ⟨l, hl, hm⟩ := (mem_side hU th leaf v b t).1 hv
  exact (mem_leaves th v t).2 ⟨l, hl, h l hl hm⟩

mutual
theorem leaves_leaf (th : Bool) {l : Ty} : ∀ t : Ty, l ∈ leaves th t →
    (∀ ms, l ≠ .union ms) ∧ (th = true → ∀ t, l ≠ .noInfer t)
  | .union ms, h => leavesAll_leaf th ms (by rwa [leaves] at h)
  | .noInfer t, h => by
    rw [leaves] at h
    split at h
    · exact leaves_leaf th t h
    · rename_i hth
      rw [List.mem_singleton] at h
      subst h
      exact ⟨(by intro _ h; cases h), fun h => absurd h hth⟩
  | .any, h | .unknown, h | .never, h | .void, h | .null, h | .undef, h | .emptyObject, h
  | .boolean, h | .number, h | .string, h | .bigint, h | .symbol, h | .boolLit _, h | .numLit _, h
  | .strLit _, h | .bigLit _, h | .template _, h | .array _, h | .tuple _, h | .object _ _ _, h
  | .callable, h | .inter _, h | .ref _, h | .param _, h | .computed _, h | .iteratorReturn, h
  | .caseOf _, h => by
    simp only [leaves, List.mem_singleton] at h
    subst h
    exact ⟨(by intro _ h; cases h), (by intro _ _ h; cases h)⟩
theorem leavesAll_leaf (th : Bool) {l : Ty} : ∀ ms : List Ty, l ∈ leavesAll th ms →
    (∀ ms, l ≠ .union ms) ∧ (th = true → ∀ t, l ≠ .noInfer t)
  | [], h => by simp [leavesAll] at h
  | m :: ms, h => by
    rw [leavesAll, List.mem_append] at h
    exact h.elim (leaves_leaf th m) (leavesAll_leaf th ms)
end

/-! ## Leaves -/

theorem truthyLeaf_keeps {v : V} {b : Bool} {l : Ty} (h : v.truthy = b) (hm : Mem K W v l) :
    Mem K W v (side b (truthyLeaf l)) := by
  have hm' := hm
  cases hm with
  | boolean =>
    rename_i c
    cases c <;> subst h <;> exact .boolLit
  | boolLit =>
    rename_i c
    cases c <;> subst h <;> exact .boolLit
  | numLit =>
    rename_i n
    simp only [V.truthy] at h
    unfold truthyLeaf
    by_cases h0 : n = .nan <;> by_cases h1 : n = .val 0 <;> simp [h0, h1] at h <;> subst h <;>
      simp [side, h0, h1] <;> first | exact hm' | (simp_all; done) | (subst h0; exact hm') |
        (subst h1; exact hm')
  | bigLit =>
    rename_i n
    simp only [V.truthy] at h
    unfold truthyLeaf
    by_cases h0 : n = 0 <;> simp [h0] at h <;> subst h <;>
      simp [side, h0] <;> first | exact hm' | (subst h0; exact hm')
  | strLit =>
    rename_i n
    simp only [V.truthy] at h
    unfold truthyLeaf
    by_cases h0 : n = "" <;> simp [h0] at h <;> subst h <;>
      simp [side, h0] <;> first | exact hm' | (subst h0; exact hm')
  | _ => subst h; first | exact hm' | (cases b <;> exact hm') | (simp only [truthyLeaf, side, ite_self]; exact hm')

theorem truthyLeaf_within {v : V} {b : Bool} {l : Ty} (h : Mem K W v (side b (truthyLeaf l))) :
    Mem K W v l := by
  unfold truthyLeaf at h
  split at h <;> cases b <;> simp only [side] at h <;> (repeat' split at h) <;>
    first
    | exact h
    | exact absurd h not_mem_never
    | (cases h; constructor)

theorem nullishLeaf_keeps {v : V} {b loose : Bool} {lit : Lit} {l : Ty}
    (hl : lit = .null ∨ lit = .undef)
    (h : b = true ↔ v = lit.val ∨ (loose = true ∧ v.nullish)) (hm : Mem K W v l)
    (hf : b = true → l.opaque = false ∧ l ≠ .void) :
    Mem K W v (side b (nullishLeaf loose lit l)) := by
  have hm' := hm
  cases b with
  | false =>
    simp only [Bool.false_eq_true, false_iff, not_or, not_and] at h
    unfold nullishLeaf
    split
    · rename_i hmt
      exfalso
      rcases hl with rfl | rfl <;> cases hm <;> simp_all [Lit.val, V.nullish, matchesNullish]
    · exact hm'
  | true =>
    obtain ⟨h1, h2⟩ := hf rfl
    have h := h.1 rfl
    have hn : v.nullish := by
      rcases h with h | h
      · rcases hl with rfl | rfl
        · exact .inr h
        · exact .inl h
      · exact h.2
    cases hm <;> first
      | (simp [Ty.opaque] at h1; done)
      | (simp at h2; done)
      | (rcases hn with hn | hn <;> cases hn; done)
      | (exfalso; contradiction)
      | (rcases hl with rfl | rfl <;> rcases h with h | h <;>
          first
          | exact hm'
          | (cases h; done)
          | (simp [nullishLeaf, matchesNullish, side, h.1]; exact hm'))

theorem nullishLeaf_within {v : V} {b loose : Bool} {lit : Lit} {l : Ty}
    (h : Mem K W v (side b (nullishLeaf loose lit l))) : Mem K W v l := by
  unfold nullishLeaf at h
  split at h <;> cases b <;> first | exact h | exact absurd h not_mem_never

theorem literalLeaf_keeps {v : V} {b : Bool} {lit : Lit} {l : Ty}
    (h1 : b = true → v = lit.val) (h2 : v = lit.val → b = true) (hm : Mem K W v l)
    (hf : b = true → Comparable lit l) :
    Mem K W v (side b (literalLeaf lit l)) := by
  have hm' := hm
  cases b with
  | false =>
    have h2 : v ≠ lit.val := fun h => by simpa using h2 h
    unfold literalLeaf
    split <;> (repeat' split) <;> first
      | exact hm'
      | (exfalso; cases hm <;> simp_all [Lit.val]; done)
      | (exfalso; cases hm; apply h2; simp_all [Lit.val]; done)
  | true =>
    have h1 := h1 rfl
    have hf := hf rfl
    subst h1
    cases lit <;> simp only [Lit.val] at hm hm' ⊢ <;> cases hm <;> first
      | (simp [Comparable, Ty.opaque] at hf; done)
      | (simp only [literalLeaf, side, if_true]; first | exact hm' | constructor)

theorem literalLeaf_within {v : V} {b : Bool} {lit : Lit} {l : Ty}
    (h : Mem K W v (side b (literalLeaf lit l))) : Mem K W v l := by
  unfold literalLeaf at h
  split at h <;> (repeat' split at h) <;> cases b <;> simp only [side] at h <;> first
    | exact h
    | exact absurd h not_mem_never
    | (simp at h; first | exact absurd h not_mem_never | exact h | (cases h; constructor))

theorem nonNullishLeaf_keeps {v : V} {b : Bool} {l : Ty} (h : b = true ↔ ¬ v.nullish)
    (hm : Mem K W v l)
    (hf : (∀ n, l ≠ .ref n) ∧ (∀ n, l ≠ .param n) ∧ (∀ n, l ≠ .computed n) ∧ (∀ ms, l ≠ .union ms) ∧
      ∀ t, l ≠ .noInfer t) :
    Mem K W v (side b (nonNullishLeaf l)) := by
  have hm' := hm
  cases b with
  | true =>
    have h := h.1 rfl
    unfold nonNullishLeaf
    split <;> first
      | exact hm'
      | (exfalso; cases hm <;> simp [V.nullish] at h; done)
  | false =>
    have h : v.nullish := by simpa using h
    cases hm <;> first
      | exact hm'
      | contradiction
      | (rcases h with h | h <;> cases h; done)
      | (exact absurd rfl (hf.1 _))
      | (exact absurd rfl (hf.2.1 _))
      | (exact absurd rfl (hf.2.2.1 _))
      | (exact absurd rfl (hf.2.2.2.1 _))
      | (exact absurd rfl (hf.2.2.2.2 _))

theorem nonNullishLeaf_within {v : V} {b : Bool} {l : Ty}
    (h : Mem K W v (side b (nonNullishLeaf l))) : Mem K W v l := by
  unfold nonNullishLeaf at h
  split at h <;> cases b <;> first | exact h | exact absurd h not_mem_never

/-! ## typeof -/

theorem object_right {b : Bool} {s : String} {c : Class} {has : JsKey → Bool} {get : JsKey → V}
    {ps : List (Key × Ty × Bool)} {is : List (Ty × Ty)} {cl : Bool}
    (h : b = true ↔ s = (V.obj c has get).typeof) (hc : c = .function ↔ cl = true)
    (hf : FairTypeofMember b s (.object ps is cl)) : matchesTypeof s (.object ps is cl) = b := by
  cases b <;> cases c <;> cases cl <;> simp_all [matchesTypeof, FairTypeofMember, V.typeof]

theorem matchesTypeof_right {b : Bool} {s : String} {v : V} (h : b = true ↔ s = v.typeof) : ∀ {l : Ty},
    Mem K W v l → FairTypeofMember b s l → matchesTypeof s l = b := by
  intro l hm
  induction hm with
  | noInfer _ ih => intro hf; exact ih h (by simpa [FairTypeofMember] using hf)
  | @object c has get ps is cl hc _ _ _ _ =>
    exact fun hf => object_right h hc hf
  | _ => intro hf; cases b <;> simp_all [matchesTypeof, FairTypeofMember, V.typeof]

theorem typeofUnknown_keeps {v : V} {s : String} (h : s = v.typeof) :
    Mem K W v (typeofUnknown s) := by
  subst h
  cases v with
  | obj c has get => cases c <;> exact .unknown
  | undef => exact .undef
  | null => exact .unknown
  | bool b => exact .boolean
  | num n => exact .number
  | str s => exact .string
  | big i => exact .bigint
  | sym n => exact .symbol

theorem narrowTypeof_keeps (hU : UnionOk K W) {b : Bool} {s : String} {v : V}
    (h : b = true ↔ s = v.typeof) : ∀ t : Ty,
    Mem K W v t → FairTypeof b s t → Mem K W v (side b (narrowTypeof K s t))
  | .noInfer t, hm, hf => by
    rw [narrowTypeof]
    cases hm with
    | noInfer hm => exact narrowTypeof_keeps hU h t hm (by simpa [FairTypeof] using hf)
  | .union ms, hm, hf => by
    rw [narrowTypeof]
    cases hm with
    | @union _ m _ hmem hm =>
      have := matchesTypeof_right h hm (by simp only [FairTypeof] at hf; exact hf m hmem)
      cases b with
      | true => exact (hU _ v).2 ⟨m, by simp [hmem, this], hm⟩
      | false => exact (hU _ v).2 ⟨m, by simp [hmem, this], hm⟩
  | .unknown, hm, _ => by
    cases b with
    | true => exact typeofUnknown_keeps (h.1 rfl)
    | false => exact hm
  | .any, hm, _ | .emptyObject, hm, _ | .iteratorReturn, hm, _ => by cases b <;> exact hm
  | .never, hm, hf | .void, hm, hf | .null, hm, hf | .undef, hm, hf
  | .boolean, hm, hf | .number, hm, hf | .string, hm, hf | .bigint, hm, hf | .symbol, hm, hf
  | .boolLit _, hm, hf | .numLit _, hm, hf | .strLit _, hm, hf | .bigLit _, hm, hf
  | .template _, hm, hf | .array _, hm, hf | .tuple _, hm, hf | .object _ _ _, hm, hf
  | .callable, hm, hf | .inter _, hm, hf | .ref _, hm, hf | .param _, hm, hf | .computed _, hm, hf
  | .caseOf _, hm, hf => by
    have := matchesTypeof_right h hm hf
    simp only [narrowTypeof, this]
    cases b <;> exact hm

theorem narrowTypeof_within (hU : UnionOk K W) {b : Bool} {s : String} {v : V} : ∀ t : Ty,
    Mem K W v (side b (narrowTypeof K s t)) → Mem K W v t
  | .noInfer t, h => .noInfer (narrowTypeof_within hU t (by simpa [narrowTypeof] using h))
  | .union ms, h => by
    rw [narrowTypeof] at h
    cases b with
    | true =>
      obtain ⟨m, hm, h⟩ := (hU _ v).1 h
      exact .union (List.mem_filter.1 hm |>.1) h
    | false =>
      obtain ⟨m, hm, h⟩ := (hU _ v).1 h
      exact .union (List.mem_filter.1 hm |>.1) h
  | .unknown, _ => .unknown
  | .any, _ => .any
  | .emptyObject, h | .iteratorReturn, h => by cases b <;> exact h
  | .never, h | .void, h | .null, h | .undef, h
  | .boolean, h | .number, h | .string, h | .bigint, h | .symbol, h
  | .boolLit _, h | .numLit _, h | .strLit _, h | .bigLit _, h
  | .template _, h | .array _, h | .tuple _, h | .object _ _ _, h
  | .callable, h | .inter _, h | .ref _, h | .param _, h | .computed _, h
  | .caseOf _, h => by
    simp only [narrowTypeof] at h
    split at h <;> cases b <;> first | exact h | exact absurd h not_mem_never

/-! ## Discriminants -/

mutual
theorem accepts_covers (n : Bool) : ∀ t : Ty, accepts n t = covers n t
  | .union ms => by rw [accepts, covers, acceptsAny_covers n ms]
  | .inter ms => by rw [accepts, covers, acceptsAll_covers n ms]
  | .string | .strLit _ | .number | .numLit _ => by rw [accepts, covers]
  | .any | .unknown | .never | .void | .null | .undef | .emptyObject
  | .boolean | .bigint | .symbol | .boolLit _
  | .bigLit _ | .template _ | .array _ | .tuple _ | .object _ _ _
  | .callable | .ref _ | .param _ | .computed _ | .iteratorReturn
  | .caseOf _ | .noInfer _ => by simp [accepts, covers]
theorem acceptsAny_covers (n : Bool) : ∀ ms : List Ty, acceptsAny n ms = coversSome n ms
  | [] => by rw [acceptsAny, coversSome]
  | m :: ms => by rw [acceptsAny, coversSome, accepts_covers n m, acceptsAny_covers n ms]
theorem acceptsAll_covers (n : Bool) : ∀ ms : List Ty, acceptsAll n ms = coversEach n ms
  | [] => by rw [acceptsAll, coversEach]
  | m :: ms => by rw [acceptsAll, coversEach, accepts_covers n m, acceptsAll_covers n ms]
end

theorem matches_same (g : Segment) (k : Key) : g.matches k = g.same k := by
  cases g <;> cases k <;> simp [Segment.matches, Segment.same, eq_comm]

theorem isNum_eq (g : Segment) : g.isNum = g.number := by
  cases g <;> rfl

mutual
theorem accepts_mono : ∀ t : Ty, accepts false t = true → accepts true t = true
  | .union ms, h => by rw [accepts] at h ⊢; exact acceptsAny_mono ms h
  | .inter ms, h => by rw [accepts] at h ⊢; exact acceptsAll_mono ms h
  | .string, _ | .strLit _, _ | .number, _ | .numLit _, _ => rfl
  | .any, h | .unknown, h | .never, h | .void, h | .null, h | .undef, h | .emptyObject, h
  | .boolean, h | .bigint, h | .symbol, h | .boolLit _, h
  | .bigLit _, h | .template _, h | .array _, h | .tuple _, h | .object _ _ _, h
  | .callable, h | .ref _, h | .param _, h | .computed _, h | .iteratorReturn, h
  | .caseOf _, h | .noInfer _, h => by simp [accepts] at h
theorem acceptsAny_mono : ∀ ms : List Ty, acceptsAny false ms = true → acceptsAny true ms = true
  | [], h => by simp [acceptsAny] at h
  | m :: ms, h => by
    rw [acceptsAny, Bool.or_eq_true] at h ⊢
    exact h.imp (accepts_mono m) (acceptsAny_mono ms)
theorem acceptsAll_mono : ∀ ms : List Ty, acceptsAll false ms = true → acceptsAll true ms = true
  | [], _ => rfl
  | m :: ms, h => by
    rw [acceptsAll, Bool.and_eq_true] at h ⊢
    exact h.imp (accepts_mono m) (acceptsAll_mono ms)
end

theorem covers_mono (t : Ty) (h : covers false t = true) : covers true t = true := by
  rw [← accepts_covers] at h ⊢
  exact accepts_mono t h

theorem matches_js {g : Segment} {k : Key} (h : g.same k = true) : k.js = g.js := by
  cases g <;> cases k <;> simp_all [Segment.same, Key.js, Segment.js]

theorem found_prop {g : Segment} {ps : List (Key × Ty × Bool)} {is : List (Ty × Ty)} {t : Ty} {o : Bool}
    (h : found g ps is = some (t, o)) :
    (∃ k, (k, t, o) ∈ ps ∧ k.js = g.js) ∨
      (o = true ∧ ∃ kt, (kt, t) ∈ is ∧ covers g.number kt = true) := by
  induction ps with
  | nil =>
    induction is with
    | nil => simp [found] at h
    | cons i is ih =>
      obtain ⟨kt, t'⟩ := i
      rw [found] at h
      split at h
      · rename_i ha
        cases h
        exact .inr ⟨rfl, kt, by simp, ha⟩
      · rcases ih h with ⟨k, hk, _⟩ | ⟨ho, kt, hk, ha⟩
        · simp at hk
        · exact .inr ⟨ho, kt, by simp [hk], ha⟩
  | cons p ps ih =>
    obtain ⟨k, t', o'⟩ := p
    rw [found] at h
    split at h
    · rename_i hk
      cases h
      exact .inl ⟨k, by simp, matches_js hk⟩
    · rcases ih h with ⟨k, hk, he⟩ | h
      · exact .inl ⟨k, by simp [hk], he⟩
      · exact .inr h

theorem found_mem (hN : NumericOk K) {g : Segment} {ps : List (Key × Ty × Bool)} {is : List (Ty × Ty)}
    {t : Ty} {o : Bool} (h : found g ps is = some (t, o)) {c : Class} {has : JsKey → Bool}
    {get : JsKey → V} {cl : Bool} (hm : Mem K W (.obj c has get) (.object ps is cl)) :
    (o = false → has g.js = true) ∧
    (has g.js = true → (o = true → get g.js ≠ .undef) → Mem K W (get g.js) t) := by
  cases hm with
  | object hc hreq hty hidx hex =>
    rcases found_prop h with ⟨k, hk, he⟩ | ⟨ho, kt, hk, ha⟩
    · rw [← he]
      refine ⟨fun ho => ?_, hty k t o hk⟩
      subst ho
      exact hreq k t hk
    · refine ⟨fun h => by simp [ho] at h, fun hh _ => ?_⟩
      cases g with
      | str s =>
        refine hidx kt t hk s hh ?_
        cases K.numeric s
        · exact ha
        · exact covers_mono kt ha
      | num n => exact hidx kt t hk _ hh (by rw [hN n]; exact ha)

/-- What is looked at at the end of a path. -/
def matchesRest (lit : Lit) : List Segment → Ty → Bool
  | [], t => matchesValue lit t
  | g :: path, t => matchesPath lit (g :: path) t

theorem matchesIndexers_found (lit : Lit) (g : Segment) (path : List Segment) : ∀ is : List (Ty × Ty),
    matchesIndexers lit g path is =
      match found g [] is with
      | some (t, _) => matchesRest lit path t
      | none => false
  | [] => by simp [matchesIndexers, found]
  | (kt, t) :: is => by
    have ih := matchesIndexers_found lit g path is
    unfold matchesIndexers found
    rw [accepts_covers, isNum_eq]
    split
    · cases path <;> rfl
    · exact ih

theorem matchesProps_found (lit : Lit) (g : Segment) (path : List Segment) (is : List (Ty × Ty)) :
    ∀ ps : List (Key × Ty × Bool),
    matchesProps lit g path ps is =
      match found g ps is with
      | some (t, _) => matchesRest lit path t
      | none => false
  | [] => by rw [matchesProps, matchesIndexers_found]
  | (k, t, o) :: ps => by
    have ih := matchesProps_found lit g path is ps
    unfold matchesProps found
    rw [matches_same]
    split
    · cases path <;> rfl
    · exact ih

mutual
theorem matchesValue_leaves (lit : Lit) : ∀ t : Ty, ∀ l ∈ leaves false t, matchesValue lit l = true →
    matchesValue lit t = true
  | .union ms, l, hl, h => by
    rw [matchesValue]
    exact matchesAnyValue_leaves lit ms l (by rwa [leaves] at hl) h
  | .noInfer t, l, hl, h | .any, l, hl, h | .unknown, l, hl, h | .never, l, hl, h | .void, l, hl, h
  | .null, l, hl, h | .undef, l, hl, h | .emptyObject, l, hl, h | .boolean, l, hl, h
  | .number, l, hl, h | .string, l, hl, h | .bigint, l, hl, h | .symbol, l, hl, h
  | .boolLit _, l, hl, h | .numLit _, l, hl, h | .strLit _, l, hl, h | .bigLit _, l, hl, h
  | .template _, l, hl, h | .array _, l, hl, h | .tuple _, l, hl, h | .object _ _ _, l, hl, h
  | .callable, l, hl, h | .inter _, l, hl, h | .ref _, l, hl, h | .param _, l, hl, h
  | .computed _, l, hl, h | .iteratorReturn, l, hl, h | .caseOf _, l, hl, h => by
    simp only [leaves, Bool.false_eq_true, if_false, List.mem_singleton] at hl
    subst hl
    exact h
theorem matchesAnyValue_leaves (lit : Lit) : ∀ ms : List Ty, ∀ l ∈ leavesAll false ms,
    matchesValue lit l = true → matchesAnyValue lit ms = true
  | [], l, hl, _ => by simp [leavesAll] at hl
  | m :: ms, l, hl, h => by
    rw [leavesAll, List.mem_append] at hl
    rw [matchesAnyValue, Bool.or_eq_true]
    exact hl.imp (fun hl => matchesValue_leaves lit m l hl h)
      fun hl => matchesAnyValue_leaves lit ms l hl h
end

mutual
theorem matchesPath_leaves (lit : Lit) (g : Segment) (p : List Segment) : ∀ t : Ty,
    ∀ l ∈ leaves false t, matchesPath lit (g :: p) l = true → matchesPath lit (g :: p) t = true
  | .union ms, l, hl, h => by
    rw [matchesPath]
    exact matchesPathAny_leaves lit g p ms l (by rwa [leaves] at hl) h
  | .noInfer t, l, hl, h | .any, l, hl, h | .unknown, l, hl, h | .never, l, hl, h | .void, l, hl, h
  | .null, l, hl, h | .undef, l, hl, h | .emptyObject, l, hl, h | .boolean, l, hl, h
  | .number, l, hl, h | .string, l, hl, h | .bigint, l, hl, h | .symbol, l, hl, h
  | .boolLit _, l, hl, h | .numLit _, l, hl, h | .strLit _, l, hl, h | .bigLit _, l, hl, h
  | .template _, l, hl, h | .array _, l, hl, h | .tuple _, l, hl, h | .object _ _ _, l, hl, h
  | .callable, l, hl, h | .inter _, l, hl, h | .ref _, l, hl, h | .param _, l, hl, h
  | .computed _, l, hl, h | .iteratorReturn, l, hl, h | .caseOf _, l, hl, h => by
    simp only [leaves, Bool.false_eq_true, if_false, List.mem_singleton] at hl
    subst hl
    exact h
theorem matchesPathAny_leaves (lit : Lit) (g : Segment) (p : List Segment) : ∀ ms : List Ty,
    ∀ l ∈ leavesAll false ms, matchesPath lit (g :: p) l = true →
    matchesPathAny lit (g :: p) ms = true
  | [], l, hl, _ => by simp [leavesAll] at hl
  | m :: ms, l, hl, h => by
    rw [leavesAll, List.mem_append] at hl
    rw [matchesPathAny, Bool.or_eq_true]
    exact hl.imp (fun hl => matchesPath_leaves lit g p m l hl h)
      fun hl => matchesPathAny_leaves lit g p ms l hl h
end

theorem comparable_matches {lit : Lit} {l : Ty} (hc : Comparable lit l) (hm : Mem K W lit.val l) :
    matchesValue lit l = true := by
  cases lit <;> simp only [Lit.val] at hm <;> cases hm <;> first
    | (simp [Comparable, Ty.opaque] at hc; done)
    | simp [matchesValue]

theorem val_undef {lit : Lit} (h : lit.val = .undef) : lit = .undef := by
  cases lit <;> first | rfl | cases h

theorem fairPath_matches (hN : NumericOk K) (lit : Lit) : ∀ (path : List Segment) (t : Ty) (v : V),
    path ≠ [] → Mem K W v t → read W v path = some lit.val → FairPathTrue lit path t →
    matchesPath lit path t = true
  | [], _, _, h, _, _, _ => absurd rfl h
  | g :: path, t, v, _, hm, hr, hf => by
    cases hm with
    | @object c has get ps is cl h1 h2 h3 h4 h5 =>
      have hmem : Mem K W (.obj c has get) (.object ps is cl) := .object h1 h2 h3 h4 h5
      rw [FairPathTrue] at hf
      obtain ⟨t, o, hfound, hf⟩ := hf
      obtain ⟨hreq, hty⟩ := found_mem hN hfound hmem
      rw [matchesPath, matchesProps_found, hfound]
      simp only [read] at hr
      cases path with
      | nil =>
        simp only [read, Option.some.injEq] at hr
        dsimp only at hf
        show matchesValue lit t = true
        cases hh : has g.js with
        | false =>
          rw [hh] at hr hreq
          simp only [Bool.false_eq_true, if_false] at hr
          have ho : o = true := by cases o <;> simp_all
          have : lit = .undef := val_undef hr.symm
          exact absurd this (hf.2 ho)
        | true =>
          rw [hh] at hr
          simp only [if_true] at hr
          have hty := hty hh (fun ho hu => hf.2 ho (val_undef (hr.symm.trans hu)))
          obtain ⟨l, hl, hml⟩ := (mem_leaves false _ t).1 hty
          rw [hr] at hml
          exact matchesValue_leaves lit t l hl (comparable_matches (hf.1 l hl) hml)
      | cons h rest =>
        dsimp only at hf
        show matchesPath lit (h :: rest) t = true
        cases hh : has g.js with
        | false => rw [hh] at hr; simp [read] at hr
        | true =>
          rw [hh] at hr
          simp only [if_true] at hr
          have hty := hty hh (fun _ hu => by rw [hu] at hr; simp [read] at hr)
          obtain ⟨l, hl, hml⟩ := (mem_leaves false _ t).1 hty
          exact matchesPath_leaves lit h rest t l hl
            (fairPath_matches hN lit (h :: rest) l _ (by simp) hml hr (hf l hl))
    | void => simp [read] at hr
    | null => simp [read] at hr
    | undef => simp [read] at hr
    | _ => simp [FairPathTrue] at hf

theorem certain_read (hN : NumericOk K) (lit : Lit) : ∀ (path : List Segment) (t : Ty) (v w : V),
    Mem K W v t → read W v path = some w → Certain lit path t → w = lit.val
  | [], _, _, _, _, _, h => by simp [Certain] at h
  | g :: path, t, v, w, hm, hr, hf => by
    cases hm with
    | @object c has get ps is cl h1 h2 h3 h4 h5 =>
      have hmem : Mem K W (.obj c has get) (.object ps is cl) := .object h1 h2 h3 h4 h5
      rw [Certain] at hf
      obtain ⟨t, hfound, hf⟩ := hf
      obtain ⟨hreq, hty⟩ := found_mem hN hfound hmem
      have hh := hreq rfl
      have hty := hty hh (by simp)
      simp only [read, hh, if_true] at hr
      cases path with
      | nil =>
        simp only [read, Option.some.injEq] at hr
        rw [hr] at hty
        dsimp only at hf
        split at hf <;> first
          | (cases hty; simp_all [Lit.val]; done)
          | exact hf.elim
      | cons h rest => exact certain_read hN lit (h :: rest) t _ w hty hr hf
    | _ => simp [Certain] at hf

mutual
theorem leaves_matchesValue (lit : Lit) : ∀ t : Ty, matchesValue lit t = true →
    ∃ l ∈ leaves false t, matchesValue lit l = true
  | .union ms, h => by
    rw [matchesValue] at h
    rw [leaves]
    exact leaves_matchesAnyValue lit ms h
  | .noInfer t, h => ⟨_, by simp [leaves], h⟩
  | .any, h | .unknown, h | .never, h | .void, h | .null, h | .undef, h | .emptyObject, h
  | .boolean, h | .number, h | .string, h | .bigint, h | .symbol, h | .boolLit _, h | .numLit _, h
  | .strLit _, h | .bigLit _, h | .template _, h | .array _, h | .tuple _, h | .object _ _ _, h
  | .callable, h | .inter _, h | .ref _, h | .param _, h | .computed _, h | .iteratorReturn, h
  | .caseOf _, h => ⟨_, by simp [leaves], h⟩
theorem leaves_matchesAnyValue (lit : Lit) : ∀ ms : List Ty, matchesAnyValue lit ms = true →
    ∃ l ∈ leavesAll false ms, matchesValue lit l = true
  | [], h => by simp [matchesAnyValue] at h
  | m :: ms, h => by
    rw [matchesAnyValue, Bool.or_eq_true] at h
    rw [leavesAll]
    rcases h with h | h
    · obtain ⟨l, hl, h⟩ := leaves_matchesValue lit m h
      exact ⟨l, List.mem_append_left _ hl, h⟩
    · obtain ⟨l, hl, h⟩ := leaves_matchesAnyValue lit ms h
      exact ⟨l, List.mem_append_right _ hl, h⟩
end

mutual
theorem leaves_matchesPath (lit : Lit) (g : Segment) (p : List Segment) : ∀ t : Ty,
    matchesPath lit (g :: p) t = true → ∃ l ∈ leaves false t, matchesPath lit (g :: p) l = true
  | .union ms, h => by
    rw [matchesPath] at h
    rw [leaves]
    exact leaves_matchesPathAny lit g p ms h
  | .noInfer t, h => ⟨_, by simp [leaves], h⟩
  | .any, h | .unknown, h | .never, h | .void, h | .null, h | .undef, h | .emptyObject, h
  | .boolean, h | .number, h | .string, h | .bigint, h | .symbol, h | .boolLit _, h | .numLit _, h
  | .strLit _, h | .bigLit _, h | .template _, h | .array _, h | .tuple _, h | .object _ _ _, h
  | .callable, h | .inter _, h | .ref _, h | .param _, h | .computed _, h | .iteratorReturn, h
  | .caseOf _, h => ⟨_, by simp [leaves], h⟩
theorem leaves_matchesPathAny (lit : Lit) (g : Segment) (p : List Segment) : ∀ ms : List Ty,
    matchesPathAny lit (g :: p) ms = true →
    ∃ l ∈ leavesAll false ms, matchesPath lit (g :: p) l = true
  | [], h => by simp [matchesPathAny] at h
  | m :: ms, h => by
    rw [matchesPathAny, Bool.or_eq_true] at h
    rw [leavesAll]
    rcases h with h | h
    · obtain ⟨l, hl, h⟩ := leaves_matchesPath lit g p m h
      exact ⟨l, List.mem_append_left _ hl, h⟩
    · obtain ⟨l, hl, h⟩ := leaves_matchesPathAny lit g p ms h
      exact ⟨l, List.mem_append_right _ hl, h⟩
end

theorem apart_matches {lit : Lit} {l : Ty} (hu : ∀ ms, l ≠ .union ms) (h : Apart lit l) :
    matchesValue lit l = false := by
  cases l with
  | union ms => exact absurd rfl (hu ms)
  | numLit n => cases n <;> cases lit <;> simp_all [Apart, matchesValue] <;> exact fun e => h e.symm
  | _ => cases lit <;> simp_all [Apart, matchesValue]

theorem excluded_matches (lit : Lit) : ∀ (path : List Segment) (t : Ty), (∀ ms, t ≠ .union ms) →
    Excluded lit path t → matchesPath lit path t = false
  | [], t, _, _ => by simp [matchesPath]
  | g :: path, t, hu, hf => by
    cases t with
    | union ms => exact absurd rfl (hu ms)
    | inter ms => exact hf.elim
    | object ps is cl =>
      rw [Excluded] at hf
      rw [matchesPath, matchesProps_found]
      split
      · rename_i t o e
        have hf := hf t o e
        cases path with
        | nil =>
          cases hm : matchesRest lit [] t with
          | false => rfl
          | true =>
            obtain ⟨l, hl, h⟩ := leaves_matchesValue lit t hm
            rw [apart_matches (leaves_leaf false t hl).1 (hf l hl)] at h
            cases h
        | cons h rest =>
          cases hm : matchesRest lit (h :: rest) t with
          | false => rfl
          | true =>
            obtain ⟨l, hl, h⟩ := leaves_matchesPath lit h rest t hm
            rw [excluded_matches lit _ l (leaves_leaf false t hl).1 (hf l hl)] at h
            cases h
      · rfl
    | _ => simp [matchesPath]

theorem discriminantLeaf_keeps (hN : NumericOk K) {v w : V} {b : Bool} {g : Segment}
    {p : List Segment} {lit : Lit} {l : Ty} (hr : read W v (g :: p) = some w)
    (h : b = true ↔ w = lit.val) (hm : Mem K W v l) (hu : ∀ ms, l ≠ .union ms)
    (hf : FairPathLeaf b (g :: p) lit l) :
    Mem K W v (side b (discriminantLeaf (g :: p) lit l)) := by
  have key : (if b then FairPathTrue lit (g :: p) l
      else Excluded lit (g :: p) l ∨ Certain lit (g :: p) l) →
      Mem K W v (side b (if matchesPath lit (g :: p) l then (l, .never) else (.never, l))) := by
    intro hf
    cases b with
    | true =>
      rw [h.1 rfl] at hr
      have := fairPath_matches hN lit (g :: p) l v (by simp) hm hr hf
      rw [if_pos this]
      exact hm
    | false =>
      simp only [Bool.false_eq_true, if_false] at hf
      rcases hf with hf | hf
      · rw [if_neg (by simp [excluded_matches lit _ l hu hf])]
        exact hm
      · have := h.2 (certain_read hN lit _ l v w hm hr hf)
        simp at this
  cases l with
  | any => cases b <;> exact hm
  | unknown => cases b <;> exact hm
  | emptyObject => cases b <;> exact hm
  | param => cases b <;> exact hm
  | ref => cases b <;> exact hm
  | _ => exact key hf

theorem discriminantLeaf_within {v : V} {b : Bool} {path : List Segment} {lit : Lit} {l : Ty}
    (h : Mem K W v (side b (discriminantLeaf path lit l))) : Mem K W v l := by
  unfold discriminantLeaf at h
  split at h <;> (repeat' split at h) <;> cases b <;> first | exact h | exact absurd h not_mem_never

/-! ## in -/

mutual
theorem narrowIn_split (p : String) : ∀ t : Ty, narrowIn K p t = split K false (narrowIn K p) t
  | .union ms => by rw [narrowIn, split, narrowIns_splits p ms]
  | .noInfer t => by simp [split]
  | .any | .unknown | .never | .void | .null | .undef | .emptyObject | .boolean | .number | .string
  | .bigint | .symbol | .boolLit _ | .numLit _ | .strLit _ | .bigLit _ | .template _ | .array _
  | .tuple _ | .object _ _ _ | .callable | .inter _ | .ref _ | .param _ | .computed _
  | .iteratorReturn | .caseOf _ => by simp [split]
theorem narrowIns_splits (p : String) : ∀ ms : List Ty,
    narrowIns K p ms = splits K false (narrowIn K p) ms
  | [] => by simp [narrowIns, splits]
  | m :: ms => by rw [narrowIns, splits, ← narrowIn_split p m, ← narrowIns_splits p ms]
end

theorem named_js (p : String) (k : Key) : k.named p = decide (k.js = .name p) := by
  cases k <;> simp [Key.named, Key.js]

theorem narrowInLeaf_keeps {v : V} {b : Bool} {p : String} {l : Ty}
    (h : ∃ c has get, v = .obj c has get ∧ has (.name p) = b) (hm : Mem K W v l)
    (hu : ∀ ms, l ≠ .union ms) (hf : FairHasLeaf K W b p l) :
    Mem K W v (side b (narrowIn K p l)) := by
  obtain ⟨c, has, get, rfl, hb⟩ := h
  have hm' := hm
  cases hm with
  | union => exact absurd rfl (hu _)
  | inter => exact hf.elim
  | array hlen _ =>
    rw [narrowIn]
    simp only [FairHasLeaf] at hf
    by_cases hp : p = "length"
    · subst hp
      rw [if_pos (.inl rfl)]
      rw [hlen] at hb
      subst hb
      exact hm'
    · by_cases hi : K.index p = true
      · simp only [hp, hi, if_true, if_false] at hf
        subst hf
        rw [if_pos (.inr hi)]
        exact hm'
      · simp only [hp, hi, if_false, Bool.false_eq_true] at hf
        subst hf
        rw [if_neg (by simp [hp, hi])]
        exact hm'
  | tuple hlen _ _ =>
    rw [narrowIn]
    simp only [FairHasLeaf] at hf
    by_cases hp : p = "length"
    · subst hp
      rw [if_pos (.inl rfl)]
      rw [hlen] at hb
      subst hb
      exact hm'
    · by_cases hi : K.index p = true
      · simp only [hp, hi, if_true, if_false] at hf
        subst hf
        rw [if_pos (.inr hi)]
        exact hm'
      · simp only [hp, hi, if_false, Bool.false_eq_true] at hf
        subst hf
        rw [if_neg (by simp [hp, hi])]
        exact hm'
  | object hc hreq hty hidx hex =>
    rw [narrowIn]
    rw [FairHasLeaf] at hf
    rw [show (fun p_1 : Key × Ty × Bool => Key.named p p_1.1) = fun q => decide (q.1.js = .name p) from
      funext fun q => named_js _ _, show (fun i : Ty × Ty => accepts (K.numeric p) i.1) =
      fun i => covers (K.numeric p) i.1 from funext fun i => accepts_covers _ _]
    split at hf
    · rename_i hcond
      rw [if_pos hcond]
      cases b with
      | true => exact hm'
      | false =>
        obtain ⟨k, t, hk, hn⟩ := hf rfl
        have := hreq k t hk
        rw [hn, hb] at this
        cases this
    · rename_i hcond
      rw [if_neg hcond]
      cases b with
      | false => exact hm'
      | true =>
        exfalso
        apply hcond
        rw [Bool.or_eq_true, List.any_eq_true, List.any_eq_true]
        rcases hex (hf rfl) p hb with ⟨k, t, o, hk, hj⟩ | ⟨kt, t, hk, ha⟩
        · exact .inl ⟨_, hk, by simpa using hj⟩
        · exact .inr ⟨_, hk, ha⟩
  | callable => simp only [FairHasLeaf] at hf; subst hf; exact hm'
  | computed => simp only [FairHasLeaf] at hf; subst hf; exact hm'
  | noInfer => simp only [FairHasLeaf] at hf; subst hf; exact hm'
  | iteratorReturn => simp only [FairHasLeaf] at hf; subst hf; exact hm'
  | _ => cases b <;> exact hm'

theorem narrowInLeaf_within {v : V} {b : Bool} {p : String} {l : Ty} (hu : ∀ ms, l ≠ .union ms)
    (h : Mem K W v (side b (narrowIn K p l))) : Mem K W v l := by
  cases l with
  | union ms => exact absurd rfl (hu ms)
  | _ =>
    simp only [narrowIn] at h
    (repeat' split at h) <;> cases b <;> simp only [side] at h <;> first
      | exact h
      | exact absurd h not_mem_never
      | (simp at h; exact h)
      | (simp at h; exact absurd h not_mem_never)

/-! ## Type predicates -/

theorem assignableLeaf_keeps (hA : AssignableOk K W) {v : V} {b : Bool} {target l : Ty}
    (h : b = true ↔ Mem K W v target) (hm : Mem K W v l) (hf : b = true → FairIsLeaf K W target l) :
    Mem K W v (side b (assignableLeaf K target l)) := by
  unfold assignableLeaf
  cases b with
  | true =>
    have ht := h.1 rfl
    split
    · exact hm
    · split
      · exact ht
      · rename_i h1 h2
        rcases hf rfl with hf | hf | hf
        · exact absurd hf h1
        · exact absurd hf h2
        · exact absurd ht (hf v hm)
  | false =>
    have ht : ¬ Mem K W v target := fun hh => by simpa using h.2 hh
    split
    · rename_i h1
      exact absurd (hA _ _ _ h1 hm) ht
    · split <;> exact hm

theorem assignableLeaf_within (hA : AssignableOk K W) {v : V} {b : Bool} {target l : Ty}
    (h : Mem K W v (side b (assignableLeaf K target l))) : Mem K W v l := by
  unfold assignableLeaf at h
  split at h
  · cases b
    · exact absurd h not_mem_never
    · exact h
  · split at h
    · rename_i h2
      cases b
      · exact h
      · exact hA _ _ _ h2 h
    · cases b
      · exact h
      · exact absurd h not_mem_never

/-! ## Tests -/

theorem test_keeps (hU : UnionOk K W) (hA : AssignableOk K W) (hN : NumericOk K) {v : V} {b : Bool}
    {ty : Ty} {t : Test} (ho : Outcome K W v b t) (hm : Mem K W v ty) (hf : FairTest K W b ty t) :
    Mem K W v (side b (t.narrow K ty)) := by
  cases t with
  | truthy => exact split_keeps hU hm fun l _ hl => truthyLeaf_keeps ho hl
  | typeof s => exact narrowTypeof_keeps hU (Iff.trans ho eq_comm) ty hm hf
  | eq lit loose =>
    have lits : (∀ u, Coerces W u lit ↔ W.coerces u lit) → FairLiteral K W b lit loose ty →
        Mem K W v (side b (narrowLiteral K lit ty)) := by
      intro hc hf
      refine split_keeps hU hm fun l hl hml => literalLeaf_keeps ?_ ?_ hml ?_
      · intro hb
        rcases ho.1 hb with h | ⟨h1, h2⟩
        · exact h
        · exact absurd ((hc v).1 h2) ((hf hb).2 h1 v hm)
      · exact fun h => ho.2 (.inl h)
      · exact fun hb => (hf hb).1 l hl
    cases lit with
    | null =>
      exact split_keeps hU hm fun l hl hml =>
        nullishLeaf_keeps (.inl rfl) ho hml fun hb => hf hb l hl
    | undef =>
      exact split_keeps hU hm fun l hl hml =>
        nullishLeaf_keeps (.inr rfl) ho hml fun hb => hf hb l hl
    | str s => exact lits (fun _ => Iff.rfl) hf
    | num n => exact lits (fun _ => Iff.rfl) hf
    | bool c => exact lits (fun _ => Iff.rfl) hf
  | path g p lit =>
    obtain ⟨w, hr, h⟩ := ho
    exact split_keeps hU hm fun l hl hml => 
      discriminantLeaf_keeps hN hr h hml (leaves_leaf false ty hl).1 (hf l hl)
  | has p =>
    show Mem K W v (side b (narrowIn K p ty))
    rw [narrowIn_split]
    exact split_keeps hU hm fun l hl hml =>
      narrowInLeaf_keeps ho hml (leaves_leaf false ty hl).1 (hf l hl)
  | is t =>
    exact split_keeps hU hm fun l hl hml => assignableLeaf_keeps hA ho hml fun hb => hf hb l hl

theorem test_within (hU : UnionOk K W) (hA : AssignableOk K W) {v : V} {b : Bool} {ty : Ty} {t : Test}
    (h : Mem K W v (side b (t.narrow K ty))) : Mem K W v ty := by
  cases t with
  | truthy => exact split_within hU h fun l _ hl => truthyLeaf_within hl
  | typeof s => exact narrowTypeof_within hU ty h
  | eq lit loose =>
    cases lit with
    | null => exact split_within hU h fun l _ hl => nullishLeaf_within hl
    | undef => exact split_within hU h fun l _ hl => nullishLeaf_within hl
    | str s => exact split_within hU h fun l _ hl => literalLeaf_within hl
    | num n => exact split_within hU h fun l _ hl => literalLeaf_within hl
    | bool c => exact split_within hU h fun l _ hl => literalLeaf_within hl
  | path g p lit => exact split_within hU h fun l _ hl => discriminantLeaf_within hl
  | has p =>
    change Mem K W v (side b (narrowIn K p ty)) at h
    rw [narrowIn_split] at h
    exact split_within hU h fun l hl hml => narrowInLeaf_within (leaves_leaf false ty hl).1 hml
  | is t => exact split_within hU h fun l _ hl => assignableLeaf_within hA hl

theorem nonNullish_keeps (hU : UnionOk K W) {v : V} {b : Bool} {t : Ty} (h : b = true ↔ ¬ v.nullish)
    (hm : Mem K W v t) (hf : FairCoalesce t) : Mem K W v (side b (nonNullish K t)) :=
  split_keeps hU hm fun l hl hml =>
    nonNullishLeaf_keeps h hml ⟨(hf l hl).1, (hf l hl).2.1, (hf l hl).2.2,
      (leaves_leaf true t hl).1, (leaves_leaf true t hl).2 rfl⟩

theorem nonNullish_within (hU : UnionOk K W) {v : V} {b : Bool} {t : Ty}
    (h : Mem K W v (side b (nonNullish K t))) : Mem K W v t :=
  split_within hU h fun _ _ hl => nonNullishLeaf_within hl

/-! ## Conditions -/

theorem isNever_eq {t : Ty} (h : isNever t = true) : t = .never := by
  cases t <;> first | rfl | simp [isNever] at h

/-- The facts for an outcome. -/
def Facts.on (f : Facts) (b : Bool) : Nat → Option Ty := if b then f.truthy else f.falsy

theorem branch_on {Γ : Env} {c : Cond} {b : Bool} {x : Nat} :
    branch K Γ c b x = ((facts K Γ c).on b x).getD (Γ x) := rfl

theorem facts_absent : ∀ (c : Cond) (Γ : Env) (b : Bool) (x : Nat), x ∉ c.vars →
    (facts K Γ c).on b x = none
  | .test neg t y, Γ, b, x, h => by
    simp only [Cond.vars, List.mem_singleton] at h
    cases neg <;> cases b <;> simp [facts, Facts.on, one, h]
  | .not c, Γ, b, x, h => by
    have := facts_absent c Γ (!b) x h
    cases b <;> simpa [facts, Facts.on] using this
  | .and a c, Γ, b, x, h => by
    simp only [Cond.vars, List.mem_append, not_or] at h
    have h1 := facts_absent a Γ true x h.1
    have h2 := facts_absent a Γ false x h.1
    have h3 := facts_absent c (apply Γ (facts K Γ a).truthy) b x h.2
    cases b <;> simp_all [facts, Facts.on, andFacts, sequence]
  | .or a c, Γ, b, x, h => by
    simp only [Cond.vars, List.mem_append, not_or] at h
    have h1 := facts_absent a Γ true x h.1
    have h2 := facts_absent a Γ false x h.1
    have h3 := facts_absent c (apply Γ (facts K Γ a).falsy) b x h.2
    cases b <;> simp_all [facts, Facts.on, orFacts, sequence]
  | .coalesce y c, Γ, b, x, h => by
    simp only [Cond.vars, List.mem_cons, not_or] at h
    have h3 := facts_absent c (setVar Γ y (nonNullish K (Γ y)).2) b x h.2
    simp only [facts]
    split <;> cases b <;> simp_all [Facts.on, one, sequence, joined]

theorem facts_present : ∀ (c : Cond) (Γ : Env) (b d : Bool) (x : Nat), Fair K W Γ d c → x ∈ c.vars →
    ((facts K Γ c).on b x).isSome = true
  | .test neg t y, Γ, b, d, x, _, h => by
    simp only [Cond.vars, List.mem_singleton] at h
    cases neg <;> cases b <;> simp [facts, Facts.on, one, h]
  | .not c, Γ, b, d, x, hf, h => by
    have := facts_present c Γ (!b) (!d) x (by cases d <;> exact hf) h
    cases b <;> simpa [facts, Facts.on] using this
  | .and a c, Γ, b, d, x, hf, h => by
    have ha : ∃ d', Fair K W Γ d' a := by
      cases d
      · exact ⟨_, hf.2.2.1⟩
      · exact ⟨_, hf.1⟩
    have hc : ∃ d', Fair K W (apply Γ (facts K Γ a).truthy) d' c := by
      cases d
      · exact ⟨_, hf.2.2.2.2⟩
      · exact ⟨_, hf.2⟩
    obtain ⟨d1, ha⟩ := ha
    obtain ⟨d2, hc⟩ := hc
    simp only [Cond.vars, List.mem_append] at h
    have h1 := facts_present a Γ true d1 x ha
    have h2 := facts_present a Γ false d1 x ha
    have h3 := facts_present c _ true d2 x hc
    have h4 := facts_present c _ false d2 x hc
    simp only [Facts.on, if_true, Bool.false_eq_true, if_false] at h1 h2 h3 h4
    cases b
    · simp only [facts, Facts.on, andFacts, sequence, Bool.false_eq_true, if_false]
      rcases h with h | h
      · obtain ⟨_, e2⟩ := Option.isSome_iff_exists.1 (h2 h)
        rw [e2]
        (repeat' split) <;> simp_all
      · obtain ⟨_, e2⟩ := Option.isSome_iff_exists.1 (h4 h)
        rw [e2]
        (repeat' split) <;> simp_all
    · simp only [facts, Facts.on, andFacts, sequence, if_true]
      split
      · rfl
      · rename_i e
        rw [e] at h3
        rcases h with h | h
        · exact h1 h
        · simpa using h3 h
  | .or a c, Γ, b, d, x, hf, h => by
    have ha : ∃ d', Fair K W Γ d' a := by
      cases d
      · exact ⟨_, hf.1⟩
      · exact ⟨_, hf.1⟩
    have hc : ∃ d', Fair K W (apply Γ (facts K Γ a).falsy) d' c := by
      cases d
      · exact ⟨_, hf.2⟩
      · exact ⟨_, hf.2.2⟩
    obtain ⟨d1, ha⟩ := ha
    obtain ⟨d2, hc⟩ := hc
    simp only [Cond.vars, List.mem_append] at h
    have h1 := facts_present a Γ true d1 x ha
    have h2 := facts_present a Γ false d1 x ha
    have h3 := facts_present c _ true d2 x hc
    have h4 := facts_present c _ false d2 x hc
    simp only [Facts.on, if_true, Bool.false_eq_true, if_false] at h1 h2 h3 h4
    cases b
    · simp only [facts, Facts.on, orFacts, sequence, Bool.false_eq_true, if_false]
      split
      · rfl
      · rename_i e
        rw [e] at h4
        rcases h with h | h
        · exact h2 h
        · simpa using h4 h
    · simp only [facts, Facts.on, orFacts, sequence, if_true]
      rcases h with h | h
      · obtain ⟨_, e2⟩ := Option.isSome_iff_exists.1 (h1 h)
        rw [e2]
        (repeat' split) <;> simp_all
      · obtain ⟨_, e2⟩ := Option.isSome_iff_exists.1 (h3 h)
        rw [e2]
        (repeat' split) <;> simp_all
  | .coalesce y c, Γ, b, d, x, hf, h => by
    have : x = y := by
      simp only [Cond.vars, List.mem_cons] at h
      exact h.elim id (by cases d <;> exact hf.1 x)
    subst this
    simp only [facts]
    split <;> cases b <;> simp only [Facts.on, one, sequence, joined, if_true, Bool.false_eq_true, if_false] <;>
      (repeat' split) <;> simp_all

/-- What a right operand leaves of a type, after what the left one left of it. -/
theorem sequence_getD {Γ : Env} {m n : Nat → Option Ty} {x : Nat} :
    (sequence m n x).getD (Γ x) = (n x).getD (apply Γ m x) := by
  unfold sequence apply
  cases n x <;> rfl

theorem nullish_of_leaves {v : V} {t : Ty} (h : ∀ l ∈ leaves true t, l = .null ∨ l = .undef ∨ l = .void)
    (hm : Mem K W v t) : v.nullish ∧ FairCoalesce t := by
  refine ⟨?_, fun l hl => ?_⟩
  · obtain ⟨l, hl, hml⟩ := (mem_leaves true v t).1 hm
    rcases h l hl with rfl | rfl | rfl <;> cases hml
    · exact .inr rfl
    · exact .inl rfl
    · exact .inl rfl
  · rcases h l hl with rfl | rfl | rfl <;> simp

theorem keeps (hU : UnionOk K W) (hA : AssignableOk K W) (hN : NumericOk K) {σ : Nat → V} {c : Cond}
    {b : Bool} (hr : Runs K W σ c b) : ∀ {Γ : Env}, Models K W σ Γ → Fair K W Γ b c →
    Models K W σ (branch K Γ c b) := by
  induction hr with
  | @test t x b ho =>
    intro Γ hΓ hf y
    rw [branch_on]
    by_cases hy : y = x
    · subst hy
      have := test_keeps hU hA hN ho (hΓ y) (by cases b <;> exact hf)
      cases b <;> simpa [facts, Facts.on, one, side] using this
    · rw [facts_absent _ _ _ _ (by simpa [Cond.vars] using hy)]
      exact hΓ y
  | @testNot t x b ho =>
    intro Γ hΓ hf y
    rw [branch_on]
    by_cases hy : y = x
    · subst hy
      have := test_keeps hU hA hN ho (hΓ y) (by cases b <;> exact hf)
      cases b <;> simpa [facts, Facts.on, one, side] using this
    · rw [facts_absent _ _ _ _ (by simpa [Cond.vars] using hy)]
      exact hΓ y
  | @not c b _ ih =>
    intro Γ hΓ hf
    have := ih hΓ (by cases b <;> exact hf)
    cases b <;> exact this
  | @andFalse a c ha ih =>
    intro Γ hΓ hf y
    obtain ⟨hv, hn, hf, _, _⟩ := hf
    have := ih hΓ hf y
    rw [branch_on] at this ⊢
    by_cases hy : y ∈ a.vars
    · obtain ⟨t, ht⟩ := Option.isSome_iff_exists.1 (facts_present a Γ false false y hf hy)
      have hn := hn y hy
      rw [branch_on] at hn
      rw [ht] at this hn
      simp only [Option.getD_some] at this hn
      obtain ⟨h1, h2⟩ := nullish_of_leaves hn this
      have h3 : Mem K W (σ y) (nonNullish K t).2 :=
        nonNullish_keeps hU (b := false) (by simpa using h1) this h2
      simp only [Facts.on, Bool.false_eq_true, if_false] at ht
      simp only [Facts.on, facts, andFacts, Bool.false_eq_true, if_false, ht]
      split
      · rename_i e _
        cases e
        split
        · exact this
        · split
          · rename_i e
            rw [isNever_eq e] at h3
            exact absurd h3 not_mem_never
          · exact (hU _ _).2 ⟨_, by simp, h3⟩
      · rename_i e _
        cases e
        exact this
      · rename_i e
        cases e
    · have hc : y ∉ c.vars := fun h => hy (hv y h)
      rw [facts_absent _ _ _ _ (by simp [Cond.vars, hy, hc])]
      exact hΓ y
  | @andTrue a c b ha hc iha ihc =>
    intro Γ hΓ hf y
    cases b with
    | true =>
      obtain ⟨h1, h2⟩ := hf
      have := ihc (iha hΓ h1) h2 y
      show Mem K W _ ((sequence _ _ y).getD (Γ y))
      rw [sequence_getD]
      exact this
    | false =>
      obtain ⟨hv, hn, hfa, h1, h2⟩ := hf
      have := ihc (iha hΓ h1) h2 y
      change Mem K W _ (((facts K (apply Γ (facts K Γ a).truthy) c).falsy y).getD
        (apply Γ (facts K Γ a).truthy y)) at this
      rw [← sequence_getD] at this
      rw [branch_on]
      simp only [Facts.on, facts, andFacts, Bool.false_eq_true, if_false]
      split
      · rename_i e1 e2
        rw [e2] at this
        simp only [Option.getD_some] at this
        split
        · rename_i e
          rw [isNever_eq e] at this
          exact absurd this not_mem_never
        · split
          · exact this
          · exact (hU _ _).2 ⟨_, by simp, this⟩
      · rename_i e1 e2
        exfalso
        by_cases hy : y ∈ a.vars
        · have h := facts_present a Γ true true y h1 hy
          simp only [Facts.on, if_true] at h
          unfold sequence at e2
          split at e2
          · cases e2
          · rw [e2] at h
            cases h
        · have h := facts_absent (K := K) a Γ false y hy
          simp only [Facts.on, Bool.false_eq_true, if_false] at h
          rw [h] at e1
          cases e1
      · exact this
  | @orTrue a c ha ih =>
    intro Γ hΓ hf y
    obtain ⟨h1, h2, h3⟩ := hf
    have := ih hΓ h1 y
    rw [branch_on] at this ⊢
    simp only [Facts.on, if_true] at this
    simp only [Facts.on, facts, orFacts, if_true]
    split
    · rename_i e1 e2
      rw [e1] at this
      exact (hU _ _).2 ⟨_, by simp, this⟩
    · rename_i e1 e2
      rw [e1] at this
      exact this
    · rename_i e1 e2
      exact (hU _ _).2 ⟨Γ y, by simp, hΓ y⟩
    · exact hΓ y
  | @orFalse a c b ha hc iha ihc =>
    intro Γ hΓ hf y
    cases b with
    | false =>
      obtain ⟨h1, h2⟩ := hf
      have := ihc (iha hΓ h1) h2 y
      show Mem K W _ ((sequence _ _ y).getD (Γ y))
      rw [sequence_getD]
      exact this
    | true =>
      obtain ⟨_, h1, h2⟩ := hf
      have := ihc (iha hΓ h1) h2 y
      change Mem K W _ (((facts K (apply Γ (facts K Γ a).falsy) c).truthy y).getD
        (apply Γ (facts K Γ a).falsy y)) at this
      rw [← sequence_getD] at this
      rw [branch_on]
      simp only [Facts.on, facts, orFacts, if_true]
      split
      · rename_i e1 e2
        rw [e2] at this
        exact (hU _ _).2 ⟨_, by simp, this⟩
      · rename_i e1 e2
        exfalso
        by_cases hy : y ∈ a.vars
        · have h := facts_present a Γ false false y h1 hy
          simp only [Facts.on, Bool.false_eq_true, if_false] at h
          unfold sequence at e2
          split at e2
          · cases e2
          · rw [e2] at h
            cases h
        · have h := facts_absent (K := K) a Γ true y hy
          simp only [Facts.on, if_true] at h
          rw [h] at e1
          cases e1
      · rename_i e1 e2
        exact (hU _ _).2 ⟨Γ y, by simp, hΓ y⟩
      · exact hΓ y
  | @left x c hx =>
    intro Γ hΓ hf y
    have hv : ∀ z ∈ c.vars, z = x := by cases h : (σ x).truthy <;> rw [h] at hf <;> exact hf.1
    by_cases hy : y = x
    · subst hy
      have := split_keeps hU (th := true) (leaf := truthyLeaf) (hΓ y) fun l _ hl =>
        truthyLeaf_keeps (b := (σ y).truthy) rfl hl
      rw [branch_on]
      simp only [facts]
      split
      · cases h : (σ y).truthy <;> rw [h] at this <;> simpa [Facts.on, one, truthyFalsy, side] using this
      · cases h : (σ y).truthy <;> rw [h] at this <;>
          simp only [Facts.on, joined, one, if_true, Bool.false_eq_true, if_false, sequence] <;>
          (repeat' split) <;> first
          | exact (hU _ _).2 ⟨_, List.mem_cons_self .., by simp_all [truthyFalsy, side]⟩
          | simp_all [truthyFalsy, side]
    · have hc : y ∉ c.vars := fun h => hy (hv y h)
      rw [branch_on, facts_absent _ _ _ _ (by simp [Cond.vars, hy, hc])]
      exact hΓ y
  | @right x c b hx hc ih =>
    intro Γ hΓ hf y
    obtain ⟨hv, hco, hf⟩ : (∀ y ∈ c.vars, y = x) ∧ FairCoalesce (Γ x) ∧
      Fair K W (setVar Γ x (nonNullish K (Γ x)).2) b c := by cases b <;> exact hf
    by_cases hy : y = x
    · subst hy
      have h0 : Mem K W (σ y) (nonNullish K (Γ y)).2 :=
        nonNullish_keeps hU (b := false) (by simpa using hx) (hΓ y) hco
      have := ih (Γ := setVar Γ y (nonNullish K (Γ y)).2) (fun z => by
        unfold setVar
        split
        · rename_i e
          subst e
          exact h0
        · exact hΓ z) hf y
      rw [branch_on] at this ⊢
      simp only [setVar, if_true] at this
      simp only [facts]
      split
      · rename_i e
        rw [isNever_eq e] at h0
        exact absurd h0 not_mem_never
      · cases b <;>
          simp only [Facts.on, joined, one, if_true, Bool.false_eq_true, if_false, sequence] at this ⊢
        · cases e : (facts K (setVar Γ y (nonNullish K (Γ y)).2) c).falsy y <;> rw [e] at this <;>
            exact (hU _ _).2 ⟨_, List.mem_cons_of_mem _ (List.mem_cons_self ..), this⟩
        · cases e : (facts K (setVar Γ y (nonNullish K (Γ y)).2) c).truthy y <;> rw [e] at this <;>
            exact (hU _ _).2 ⟨_, List.mem_cons_of_mem _ (List.mem_cons_self ..), this⟩
    · have hc : y ∉ c.vars := fun h => hy (hv y h)
      rw [branch_on, facts_absent _ _ _ _ (by simp [Cond.vars, hy, hc])]
      exact hΓ y

theorem sequence_within {m n : Nat → Option Ty} {x : Nat} {v : V} {t : Ty}
    (h : Mem K W v ((sequence m n x).getD t))
    (hm : Mem K W v ((m x).getD t) → Mem K W v t)
    (hn : Mem K W v ((n x).getD ((m x).getD t)) → Mem K W v ((m x).getD t)) : Mem K W v t := by
  unfold sequence at h
  cases e : n x with
  | none => rw [e] at h; exact hm h
  | some u => rw [e] at h hn; exact hm (hn h)

theorem within (hU : UnionOk K W) (hA : AssignableOk K W) {v : V} : ∀ (c : Cond) (Γ : Env) (b : Bool)
    (x : Nat), Mem K W v (branch K Γ c b x) → Mem K W v (Γ x)
  | .test neg t y, Γ, b, x, h => by
    by_cases hx : x = y
    · subst hx
      have : Mem K W v (side (b != neg) (t.narrow K (Γ x))) := by
        cases neg <;> cases b <;> simpa [branch_on, facts, Facts.on, one, side] using h
      exact test_within hU hA this
    · rwa [branch_on, facts_absent _ _ _ _ (by simpa [Cond.vars] using hx)] at h
  | .not c, Γ, b, x, h => within hU hA c Γ (!b) x (by cases b <;> exact h)
  | .and a c, Γ, b, x, h => by
    have h1 := within hU hA (v := v) a Γ true x
    have h2 := within hU hA (v := v) a Γ false x
    have h3 := within hU hA (v := v) c (apply Γ (facts K Γ a).truthy) b x
    cases b with
    | true => exact sequence_within h h1 h3
    | false =>
      have key : Mem K W v ((sequence (facts K Γ a).truthy
          (facts K (apply Γ (facts K Γ a).truthy) c).falsy x).getD (Γ x)) → Mem K W v (Γ x) :=
        fun h => sequence_within h h1 h3
      simp only [branch_on, Facts.on, Bool.false_eq_true, if_false] at h2
      simp only [branch_on, Facts.on, facts, andFacts, Bool.false_eq_true, if_false] at h
      split at h
      · rename_i e1 e2
        rw [e1] at h2
        rw [e2] at key
        split at h
        · exact h2 h
        · split at h
          · exact key h
          · obtain ⟨t, ht, hm⟩ := (hU _ _).1 h
            simp only [List.mem_cons, List.not_mem_nil, or_false] at ht
            rcases ht with rfl | rfl
            · exact key hm
            · exact h2 (nonNullish_within hU (b := false) hm)
      · rename_i e1 e2
        rw [e1] at h2
        exact h2 h
      · exact key h
  | .or a c, Γ, b, x, h => by
    have h1 := within hU hA (v := v) a Γ true x
    have h2 := within hU hA (v := v) a Γ false x
    have h3 := within hU hA (v := v) c (apply Γ (facts K Γ a).falsy) b x
    have h4 := within hU hA (v := v) c (apply Γ (facts K Γ a).falsy) false x
    cases b with
    | false => exact sequence_within h h2 h3
    | true =>
      have key : Mem K W v ((sequence (facts K Γ a).falsy
          (facts K (apply Γ (facts K Γ a).falsy) c).truthy x).getD (Γ x)) → Mem K W v (Γ x) :=
        fun h => sequence_within h h2 h3
      simp only [branch_on, Facts.on, if_true] at h1
      simp only [branch_on, Facts.on, facts, orFacts, if_true] at h
      split at h
      · rename_i e1 e2
        rw [e1] at h1
        rw [e2] at key
        obtain ⟨t, ht, hm⟩ := (hU _ _).1 h
        simp only [List.mem_cons, List.not_mem_nil, or_false] at ht
        rcases ht with rfl | rfl
        · exact h1 hm
        · exact key hm
      · rename_i e1 e2
        rw [e1] at h1
        exact h1 h
      · rename_i e1 e2
        rw [e2] at key
        obtain ⟨t, ht, hm⟩ := (hU _ _).1 h
        simp only [List.mem_cons, List.not_mem_nil, or_false] at ht
        rcases ht with rfl | rfl
        · split at hm
          · rename_i f e3
            obtain ⟨u, hu, hmu⟩ := (hU _ _).1 hm
            simp only [List.mem_cons, List.not_mem_nil, or_false] at hu
            rcases hu with rfl | rfl
            · exact key hmu
            · refine h2 (h4 ?_)
              rw [branch_on]
              simp only [Facts.on, Bool.false_eq_true, if_false]
              rw [e3]
              exact hmu
          · exact key hm
        · exact hm
      · exact h
  | .coalesce y c, Γ, b, x, h => by
    have h3 := within hU hA (v := v) c (setVar Γ y (nonNullish K (Γ y)).2) b x
    have hl : Mem K W v (side b (truthyFalsy K (Γ y))) → Mem K W v (Γ y) :=
      fun h => test_within hU hA (t := .truthy) h
    have hn : Mem K W v (nonNullish K (Γ y)).2 → Mem K W v (Γ y) :=
      fun h => nonNullish_within hU (b := false) h
    by_cases hx : x = y
    · subst hx
      have h4 : Mem K W v ((sequence (one x (nonNullish K (Γ x)).2)
          ((facts K (setVar Γ x (nonNullish K (Γ x)).2) c).on b) x).getD (Γ x)) →
          Mem K W v (Γ x) := by
        intro h
        simp only [branch_on, setVar, if_true] at h3
        refine sequence_within h ?_ ?_ <;> simp only [one, if_true, Option.getD_some]
        · exact hn
        · exact h3
      rw [branch_on] at h
      simp only [facts] at h
      split at h
      · refine hl ?_
        cases b <;> simpa [Facts.on, one, side] using h
      · cases b
        · simp only [Facts.on, joined, Bool.false_eq_true, if_false] at h h4
          split at h
          · rename_i e1 e2
            rw [e2] at h4
            simp only [one, if_true, Option.some.injEq] at e1
            subst e1
            obtain ⟨t, ht, hm⟩ := (hU _ _).1 h
            simp only [List.mem_cons, List.not_mem_nil, or_false] at ht
            rcases ht with rfl | rfl
            · exact hl hm
            · exact h4 hm
          · rename_i e1 e2
            simp only [one, if_true, Option.some.injEq] at e1
            subst e1
            exact hl h
          · exact h4 h
        · simp only [Facts.on, joined, if_true] at h h4
          split at h
          · rename_i e1 e2
            rw [e2] at h4
            simp only [one, if_true, Option.some.injEq] at e1
            subst e1
            obtain ⟨t, ht, hm⟩ := (hU _ _).1 h
            simp only [List.mem_cons, List.not_mem_nil, or_false] at ht
            rcases ht with rfl | rfl
            · exact hl hm
            · exact h4 hm
          · rename_i e1 e2
            simp only [one, if_true, Option.some.injEq] at e1
            subst e1
            exact hl h
          · exact h4 h
    · simp only [branch_on, setVar, if_neg hx] at h3
      rw [branch_on] at h
      simp only [facts] at h
      split at h
      · cases b <;> simpa [Facts.on, one, hx] using h
      · cases b <;> simp only [Facts.on, joined, one, sequence, hx, if_true, if_false,
          Bool.false_eq_true] at h h3
        · cases e : (facts K (setVar Γ y (nonNullish K (Γ y)).2) c).falsy x <;> rw [e] at h h3 <;>
            first | exact h | exact h3 h
        · cases e : (facts K (setVar Γ y (nonNullish K (Γ y)).2) c).truthy x <;> rw [e] at h h3 <;>
            first | exact h | exact h3 h

end Verif.Narrow
