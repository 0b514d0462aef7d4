import Verif.Relate.Simple
import Verif.Relate.Theorems

/-!
# C83: the laws of assignability

The full property: read as sets of values, the types behave as sets. Every type is assignable to
itself, to unknown and any; never is assignable to every type; simple types are assignable exactly
if their values are; a type is assignable to every union it is a member of; a union is assignable
exactly if each of its members is; a type is assignable to an intersection exactly if it is to each
of its members.

Not all of this is true of the code. A type parameter, an unresolved conditional type and `{}` are
not assignable to the unions they are members of (`C83_member_violated`), a union of string and null
is assignable to `{}` though null is not (`C83_union_violated`), and any is assignable to never
(`C83_never_violated`).
-/

namespace Verif.Relate

/-- Every type is assignable to itself, to unknown and to any, and never is assignable to every type,
whatever was asked before and whatever the limits. -/
theorem C83_extremes (C : Ctx) (before : List Op) (a b : Id)
    (idem : ∀ t, C.store.normalize (C.store.normalize t) = C.store.normalize t)
    (simple : ∀ t, C.store.kind t = .unknown ∨ C.store.kind t = .any ∨ C.store.kind t = .never →
      C.store.normalize t = t) :
    (a = b → answer C before (.assignable a b) = true) ∧
    (C.store.kind b = .unknown → answer C before (.assignable a b) = true) ∧
    (C.store.kind b = .any → answer C before (.assignable a b) = true) ∧
    (C.store.kind a = .any → answer C before (.assignable a b) = true) ∧
    (C.store.kind a = .never → answer C before (.assignable a b) = true) := by
  have yes : Related C a b {} → answer C before (.assignable a b) = true :=
    (C82_partial C before (.assignable a b)).1 (by simp)
  refine ⟨fun e => yes (e ▸ related_refl a {}), fun e => yes ?_, fun e => yes ?_, fun e => yes ?_,
    fun e => yes ?_⟩
  · have hn := simple b (.inl e)
    exact related_normal idem (byVariance_right (by simp [e])) (byVariance_right (by simp [hn, e]))
      (by rw [hn, e]; exact special_unknown _)
  · have hn := simple b (.inr (.inl e))
    exact related_normal idem (byVariance_right (by simp [e])) (byVariance_right (by simp [hn, e]))
      (by rw [hn, e]; exact special_any _)
  · have hn := simple a (.inr (.inl e))
    exact related_normal idem (byVariance_left (by simp [e])) (byVariance_left (by simp [hn, e]))
      (by rw [hn, e]; exact special_from_any _)
  · have hn := simple a (.inr (.inr e))
    exact related_normal idem (byVariance_left (by simp [e])) (byVariance_left (by simp [hn, e]))
      (by rw [hn, e]; exact special_never _)

/-- With strict null checks, a simple type is assignable to another exactly if each of its values is
a value of the other, whatever was asked before. -/
theorem C83_simple (C : Ctx) (before : List Op) (a b : Id)
    (hnull : C.opts.strictNull = true) (hsteps : C.limits.steps = none)
    (hdepth : 0 < C.limits.depth) (hroom : 0 < C.limits.inProgress)
    (interned : C.store.kind a = C.store.kind b → a = b)
    (ha : Simple (C.store.kind a) = true) (hb : Simple (C.store.kind b) = true)
    (na : C.store.normalize a = a) (nb : C.store.normalize b = b) :
    answer C before (.assignable a b) = true ↔
      ∀ v, Has v (C.store.kind a) → Has v (C.store.kind b) := by
  by_cases hab : a = b
  · subst hab
    have : (rules C a a {}).questions = [] := by simp [rules, assignable, Goal.questions]
    rw [answer_leaf before this hsteps hdepth hroom]
    simp [related_refl]
  have h := holds_simple (R := Related C) hab ha hb na nb
  rw [answer_leaf before h.2 hsteps hdepth hroom, related_iff, h.1]
  constructor
  · intro hr v hv
    exact simpleRule_sound hnull ha hb hr v hv
  · intro hv
    cases hr : simpleRule C.store C.opts (C.store.kind a) (C.store.kind b) with
    | true => rfl
    | false =>
      have := simpleRule_complete hnull (fun e => hab (interned e)) ha hb hr
      exact absurd (hv _ this.1) this.2

theorem expanded_normal {S : Store} {o : Opts} {n : Nat} {a b : Id} {m : Mode} (ha : Normal S a)
    (hb : Normal S b) :
    expanded S o n a b (S.kind a) (S.kind b) m = composite S o n a b (S.kind a) (S.kind b) m := by
  have h1 := ha.2
  have h2 := hb.2
  generalize S.kind a = ka at *
  generalize S.kind b = kb at *
  unfold expanded
  cases ka <;> cases kb <;> simp_all

/-- A type is assignable to every union it is a member of, whatever was asked before and whatever the
limits, unless it is a type parameter, an unresolved conditional type, `{}`, unknown or itself a
union (the store keeps no unions with the last two as members). Missing for the full law: type
parameters, conditional types and `{}`, see `C83_member_violated`. -/
theorem C83_member_partial (C : Ctx) (before : List Op) (a u : Id) (ms : List Id)
    (hu : C.store.kind u = .union ms) (ha : a ∈ ms)
    (na : Normal C.store a) (nu : Normal C.store u)
    (hk : C.store.kind a ≠ .emptyObject ∧ C.store.kind a ≠ .unknown ∧
      (∀ p, C.store.kind a ≠ .param p) ∧ (∀ y n, C.store.kind a ≠ .conditional y n) ∧
      ∀ ms, C.store.kind a ≠ .union ms) :
    answer C before (.assignable a u) = true := by
  refine (C82_partial C before (.assignable a u)).1 (by simp) ?_
  show Related C a u {}
  by_cases hau : a = u
  · exact hau ▸ related_refl a {}
  apply related_of_holds
  rw [holds_normal hau (byVariance_right (by simp [hu])) na.1 nu.1]
  have key : Holds (Related C) (.any (ms.map fun t => .ask 0 a t {})) := by
    rw [holds_any]
    exact ⟨_, List.mem_map_of_mem ha, related_refl a {}⟩
  obtain ⟨h1, h2, h3, h4, h5⟩ := hk
  rw [expanded_normal na nu]
  rw [hu]
  generalize C.store.kind a = ka at *
  unfold special
  by_cases hs : !C.opts.strictNull && ((ka = .null || ka = .undef) || false) <;>
    cases ka <;> simp_all [composite]

/-- A union is assignable to a type exactly if each of its members is, as long as the types asked
about are small. The target is neither `{}` nor one of the types every type or no type is assignable
to (any, unknown, type parameters, never), nor an unresolved conditional type. Missing for the full
law: `{}` and conditional types as targets, see `C83_union_violated`. -/
theorem C83_union_partial (C : Ctx) (before : List Op) (u b : Id) (ms : List Id)
    (hnull : C.opts.strictNull = true) (hsteps : C.limits.steps = none)
    (hroom : C.limits.depth ≤ C.limits.inProgress)
    (hu : C.store.kind u = .union ms) (nu : Normal C.store u) (nb : Normal C.store b) (hub : u ≠ b)
    (hk : C.store.kind b ≠ .emptyObject ∧ C.store.kind b ≠ .any ∧ C.store.kind b ≠ .unknown ∧
      C.store.kind b ≠ .never ∧ (∀ p, C.store.kind b ≠ .param p) ∧
      ∀ y n, C.store.kind b ≠ .conditional y n)
    (hb : ∀ o ∈ before, Small C o) (hs : Small C (.assignable u b))
    (hm : ∀ m ∈ ms, Small C (.assignable m b)) :
    answer C before (.assignable u b) = true ↔
      ∀ m ∈ ms, answer C before (.assignable m b) = true := by
  rw [(C82_partial C before (.assignable u b)).2 hsteps hroom hb hs]
  have hmem : (∀ m ∈ ms, answer C before (.assignable m b) = true) ↔ ∀ m ∈ ms, Related C m b {} :=
    ⟨fun h m hm' => ((C82_partial C before (.assignable m b)).2 hsteps hroom hb (hm m hm')).1 (h m hm'),
      fun h m hm' => ((C82_partial C before (.assignable m b)).2 hsteps hroom hb (hm m hm')).2 (h m hm')⟩
  rw [hmem]
  show Related C u b {} ↔ _
  rw [related_iff, holds_normal hub (byVariance_left (by simp [hu])) nu.1 nb.1, expanded_normal nu nb]
  have hall : Holds (Related C) (.all (ms.map fun t => .ask 0 t b {})) ↔
      ∀ m ∈ ms, Related C m b {} := by
    rw [holds_all]
    simp [Holds]
  rw [← hall, hu]
  obtain ⟨h1, h2, h3, h4, h5, h6⟩ := hk
  generalize C.store.kind b = kb at *
  cases kb <;> simp_all [special, composite]

/-- A type is assignable to an intersection exactly if it is to each of its members, as long as the
types asked about are small. The source is no union, conditional type, type parameter, any, never,
unknown or `{}`. -/
theorem C83_intersection_partial (C : Ctx) (before : List Op) (a i : Id) (ms : List Id)
    (hnull : C.opts.strictNull = true) (hsteps : C.limits.steps = none)
    (hroom : C.limits.depth ≤ C.limits.inProgress)
    (hi : C.store.kind i = .inter ms) (na : Normal C.store a) (ni : Normal C.store i) (hai : a ≠ i)
    (hk : C.store.kind a ≠ .emptyObject ∧ C.store.kind a ≠ .any ∧ C.store.kind a ≠ .unknown ∧
      C.store.kind a ≠ .never ∧ (∀ p, C.store.kind a ≠ .param p) ∧
      (∀ ms, C.store.kind a ≠ .union ms) ∧ ∀ y n, C.store.kind a ≠ .conditional y n)
    (hb : ∀ o ∈ before, Small C o) (hs : Small C (.assignable a i))
    (hm : ∀ m ∈ ms, Small C (.assignable a m)) :
    answer C before (.assignable a i) = true ↔
      ∀ m ∈ ms, answer C before (.assignable a m) = true := by
  rw [(C82_partial C before (.assignable a i)).2 hsteps hroom hb hs]
  have hmem : (∀ m ∈ ms, answer C before (.assignable a m) = true) ↔ ∀ m ∈ ms, Related C a m {} :=
    ⟨fun h m hm' => ((C82_partial C before (.assignable a m)).2 hsteps hroom hb (hm m hm')).1 (h m hm'),
      fun h m hm' => ((C82_partial C before (.assignable a m)).2 hsteps hroom hb (hm m hm')).2 (h m hm')⟩
  rw [hmem]
  show Related C a i {} ↔ _
  rw [related_iff, holds_normal hai (byVariance_right (by simp [hi])) na.1 ni.1, expanded_normal na ni]
  have hall : Holds (Related C) (.all (ms.map fun t => .ask 0 a t {})) ↔
      ∀ m ∈ ms, Related C a m {} := by
    rw [holds_all]
    simp [Holds]
  rw [← hall, hi]
  obtain ⟨h1, h2, h3, h4, h5, h6, h7⟩ := hk
  generalize C.store.kind a = ka at *
  cases ka <;> simp_all [special, composite]

/-! ## Where the laws fail, and examples -/

/-- 1 null, 2 string, 3 `{}`, 4 a type parameter, 5 a conditional type, 6 undefined, 7 any, 8 never;
unions: 11 `string | null`, 13 `{} | null`, 14 `T | undefined`, 15 the conditional type or null;
20 and 21 are object types with a string property each, 22 their intersection, 23 an object type
with both, 24 the union of 20 and 21. -/
def lawKind : Id → Kind
  | 1 => .null | 2 => .string | 3 => .emptyObject | 4 => .param 0 | 5 => .conditional 2 6
  | 6 => .undef | 7 => .any | 8 => .never | 9 => .unknown | 10 => .strLit 3
  | 11 => .union [2, 1] | 13 => .union [3, 1] | 14 => .union [4, 6] | 15 => .union [5, 1]
  | 20 => shape [prop 0 2] | 21 => shape [prop 1 2] | 22 => .inter [20, 21]
  | 23 => shape [prop 0 10, prop 1 2] | 24 => .union [20, 21] | 25 => shape [prop 0 11]
  | _ => .other

def lawExample : Ctx := { store := { kind := lawKind } }

/-- `T` is not assignable to `T | undefined`, `{}` not to `{} | null`, and an unresolved conditional
type not to its union with null. -/
theorem C83_member_violated :
    answer lawExample [] (.assignable 4 14) = false ∧
    answer lawExample [] (.assignable 3 13) = false ∧
    answer lawExample [] (.assignable 5 15) = false := by
  decide +kernel

/-- `string | null` is assignable to `{}`; null is not. -/
theorem C83_union_violated :
    answer lawExample [] (.assignable 11 3) = true ∧
    answer lawExample [] (.assignable 1 3) = false := by
  decide +kernel

/-- any, which has values, is assignable to never, which has none. -/
theorem C83_never_violated : answer lawExample [] (.assignable 7 8) = true := by
  decide +kernel

theorem lawNormal (t : Id) : Normal lawExample.store t := ⟨rfl, fun _ _ _ => rfl⟩

example : answer lawExample [.assignable 4 14] (.assignable 20 9) = true :=
  (C83_extremes lawExample _ 20 9 (fun _ => rfl) (fun _ _ => rfl)).2.1 rfl

example : answer lawExample [.assignable 4 14] (.assignable 10 2) = true :=
  (C83_simple lawExample _ 10 2 rfl rfl (by decide) (by decide) (fun e => by cases e) rfl rfl rfl
    rfl).2 (by intro v h; cases v <;> simp_all [lawExample, lawKind, Has])

example : answer lawExample [] (.assignable 6 3) = false := by
  rw [← Bool.not_eq_true, C83_simple lawExample _ 6 3 rfl rfl (by decide) (by decide)
    (fun e => by cases e) rfl rfl rfl rfl]
  exact fun h => (h .undef trivial).1 rfl

example : answer lawExample [.assignable 3 13] (.assignable 2 11) = true :=
  C83_member_partial lawExample _ 2 11 [2, 1] rfl (by simp) (lawNormal _) (lawNormal _)
    ⟨by simp [lawExample, lawKind], by simp [lawExample, lawKind], by simp [lawExample, lawKind],
      by simp [lawExample, lawKind], by simp [lawExample, lawKind]⟩

theorem lawSmall (a b : Id) (h : within lawExample 64 64 a b {} = true) :
    Small lawExample (.assignable a b) := within_sound _ 64 _ _ _ _ h

/-- `{ p: string } | { q: string }` is not assignable to `{ p: string | null }`: one member is, the
other is not. -/
example : answer lawExample [.assignable 23 22] (.assignable 24 25) = false := by
  rw [← Bool.not_eq_true, C83_union_partial lawExample _ 24 25 [20, 21] rfl rfl (by decide) rfl
    (lawNormal _) (lawNormal _) (by decide)
    ⟨by decide, by decide, by decide, by decide, fun _ => by simp [lawExample, lawKind, shape], fun _ _ => by simp [lawExample, lawKind, shape]⟩
    (by intro o ho; cases List.mem_singleton.1 ho; exact lawSmall _ _ (by decide +kernel))
    (lawSmall _ _ (by decide +kernel))
    (by
      intro m hm
      simp only [List.mem_cons, List.not_mem_nil, or_false] at hm
      rcases hm with rfl | rfl <;> exact lawSmall _ _ (by decide +kernel))]
  intro h
  exact absurd (h 21 (by simp)) (by decide +kernel)

/-- `{ p: "x", q: string }` is assignable to `{ p: string } & { q: string }`. -/
example : answer lawExample [] (.assignable 23 22) = true := by
  rw [C83_intersection_partial lawExample _ 23 22 [20, 21] rfl rfl (by decide) rfl
    (lawNormal _) (lawNormal _) (by decide)
    ⟨by decide, by decide, by decide, by decide, fun _ => by simp [lawExample, lawKind, shape],
      fun _ => by simp [lawExample, lawKind, shape], fun _ _ => by simp [lawExample, lawKind, shape]⟩
    (by simp)
    (lawSmall _ _ (by decide +kernel))
    (by
      intro m hm
      simp only [List.mem_cons, List.not_mem_nil, or_false] at hm
      rcases hm with rfl | rfl <;> exact lawSmall _ _ (by decide +kernel))]
  intro m hm
  simp only [List.mem_cons, List.not_mem_nil, or_false] at hm
  rcases hm with rfl | rfl <;> decide +kernel

end Verif.Relate
