import Verif.Widen.Values
/-!
# C96: widening

`H` stands for the fingerprint functions of the store, `O` for the values of the kinds that are left
open, `arr` for the array values; all three are arbitrary.
-/

namespace Verif.Widen
open Verif.Types
open Verif.Types.Store

/-! ## An example -/

/-- Type 15 is the literal `5`. -/
def v1 : Store := after w2 (.type (.numLit 5))
/-- Type 16 is `readonly 5[]`. -/
def v2 : Store := after v1 (.type (.array 15 true))
/-- Type 17 is the union of `null`, `true` and `readonly 5[]`. -/
def v3 : Store := after v2 (.union [12, 4, 16])

theorem reach_v3 : Reachable hashes v3 := by
  refine reach_after (reach_after (reach_after reach_w2
    (known_atom ⟨rfl, by simp, by simp, by simp, by simp, by simp⟩)) ?_) ?_
  · exact array_known (by decide +kernel)
  · show ∀ t ∈ [12, 4, 16], (v2.kind? t).isSome
    decide +kernel

/-- The store after type 17 has been widened. -/
def v4 : Store :=
  match widen hashes v3 17 with
  | some (st, _) => st
  | none => v3

theorem widen_v3 : widen hashes v3 17 = some (v4, 19) := by decide +kernel

/-- The result is the union of `null`, `boolean` and `readonly number[]`. -/
theorem kinds_v4 : v4.kind? 19 = some (.union [4, 6, 18]) ∧ v4.kind? 18 = some (.array 7 true) ∧
    v4.kind? 17 = some (.union [4, 12, 16]) ∧ v4.kind? 16 = some (.array 15 true) ∧
    v4.kind? 15 = some (.numLit 5) ∧ v4.kind? 7 = some .number := by decide +kernel

/-- The value `other 0` is an empty array and `other (n + 1)` an array of the number `n`. -/
def arrays (_ : Bool) (v : Val) (xs : List Val) : Prop :=
  v = .other 0 ∧ xs = [] ∨ ∃ n : Nat, v = .other (n + 1) ∧ xs = [.num n]

/-- A reading of the open kinds that fits. -/
def reading : Kind → Val → Prop
  | .array 15 _, v => v = .other 0 ∨ v = .other 6
  | .array _ _, v => ∃ n, v = .other n
  | .null, v => v = .big 0
  | _, _ => False

theorem lookup_mem {α : Type} {l : List (Nat × α)} {t : Nat} {k : α} (h : l.lookup t = some k) :
    (t, k) ∈ l := by
  induction l with
  | nil => cases h
  | cons p l ih =>
    obtain ⟨i, x⟩ := p
    rw [List.lookup_cons] at h
    split at h
    · rename_i e
      cases h
      rw [beq_iff_eq.1 e]
      exact List.mem_cons_self ..
    · exact List.mem_cons_of_mem _ (ih h)

theorem reads_v4 : ReadsArrays v4 reading arrays := by
  intro t a r v h
  have hm : (t, Kind.array a r) ∈ v4.types := lookup_mem h
  have ha : ∀ p ∈ v4.types, (match p.2 with | .array a _ => a == 15 || a == 7 | _ => true) = true := by
    decide +kernel
  have h15 : ∀ x, Has v4 reading x 15 ↔ x = .num 5 := fun x =>
    has_of_kind (k := .numLit 5) (by decide +kernel)
  have h7 : ∀ x, Has v4 reading x 7 ↔ ∃ r, x = .num r := fun x =>
    has_of_kind (k := .number) (by decide +kernel)
  have ha := ha _ hm
  simp only [Bool.or_eq_true, beq_iff_eq] at ha
  rcases ha with rfl | rfl
  · simp only [h15, reading, arrays]
    constructor
    · rintro (rfl | rfl)
      · exact ⟨[], .inl ⟨rfl, rfl⟩, by simp⟩
      · exact ⟨[.num 5], .inr ⟨5, rfl, rfl⟩, by simp⟩
    · rintro ⟨xs, ⟨rfl, rfl⟩ | ⟨n, rfl, rfl⟩, h⟩
      · exact .inl rfl
      · have := h _ (List.mem_singleton.2 rfl)
        simp only [Val.num.injEq] at this
        have : n = 5 := by omega
        subst this
        exact .inr rfl
  · simp only [h7, reading, arrays]
    constructor
    · rintro ⟨n, rfl⟩
      cases n with
      | zero => exact ⟨[], .inl ⟨rfl, rfl⟩, by simp⟩
      | succ n => exact ⟨[.num n], .inr ⟨n, rfl, rfl⟩, by simp⟩
    · rintro ⟨xs, ⟨rfl, rfl⟩ | ⟨n, rfl, rfl⟩, h⟩
      · exact ⟨0, rfl⟩
      · exact ⟨n + 1, rfl⟩

/-! ## Literals -/

/-- **C96.** `widen_literal` turns a literal type into the primitive type it is part of and returns any
other type as it is. -/
theorem C96_literal {H : Hashes} {st : Store} (h : Reachable H st) (t : Nat) (k : Kind)
    (hk : st.kind? t = some k) :
    ∃ t', widenLiteral st t = some t' ∧
      ((∃ b, k = .boolLit b) → st.kind? t' = some .boolean) ∧
      ((∃ q, k = .numLit q) → st.kind? t' = some .number) ∧
      ((∃ n, k = .strLit n) → st.kind? t' = some .string) ∧
      ((∃ i, k = .bigLit i) → st.kind? t' = some .bigint) ∧
      (¬ IsLiteral k → t' = t) := by
  have hp := (reachable_inv h).prims
  unfold widenLiteral
  rw [hk]
  cases k <;> refine ⟨_, rfl, ?_, ?_, ?_, ?_, ?_⟩ <;> intro hx <;> first
    | exact hp.number
    | exact hp.string
    | exact hp.boolean
    | exact hp.bigint
    | rfl
    | exact absurd trivial hx
    | (obtain ⟨_, e⟩ := hx; cases e)

example : Reachable hashes v3 ∧ v3.kind? 15 = some (.numLit 5) ∧ widenLiteral v3 15 = some 7 ∧
    v3.kind? 7 = some .number :=
  ⟨reach_v3, by decide +kernel, by decide +kernel, by decide +kernel⟩

/-! ## Values -/

/-- **C96.** The values of the widened type are exactly the values that the type has when the literal
types in it are read as their primitive types. -/
theorem C96_values {H : Hashes} {st st' : Store} (h : Reachable H st) (O : Kind → Val → Prop)
    (arr : Bool → Val → List Val → Prop) (t t' : Nat) (hk : (st.kind? t).isSome)
    (hw : widen H st t = some (st', t')) (hr : ReadsArrays st' O arr) (v : Val) :
    Has st' O v t' ↔ Wide st O arr v t := by
  have hi := reachable_inv h
  have g := widenN_good _ _ _ _ _ hi hk hw
  rw [widenN_values g.ok.inv hr _ _ _ _ _ hi hk hw (Le.refl _) v]
  exact ⟨wide_down hi.core g.ok.le hk, wide_up g.ok.le⟩

/-- **C96.** Widening loses no value. -/
theorem C96_contains {H : Hashes} {st st' : Store} (h : Reachable H st) (O : Kind → Val → Prop)
    (arr : Bool → Val → List Val → Prop) (t t' : Nat) (hk : (st.kind? t).isSome)
    (hw : widen H st t = some (st', t')) (hr : ReadsArrays st' O arr) (v : Val) (hv : Has st O v t) :
    Has st' O v t' := by
  have hi := reachable_inv h
  have g := widenN_good _ _ _ _ _ hi hk hw
  obtain ⟨r, hc⟩ := g.ok.inv.core.closed
  exact (widenN_values g.ok.inv hr _ _ _ _ _ hi hk hw (Le.refl _) v).2
    (wide_of_has g.ok.inv.core hc hr _ t (Nat.lt_succ_self _) v (has_up g.ok.le hv))

example : Reachable hashes v3 ∧ (v3.kind? 17).isSome ∧ widen hashes v3 17 = some (v4, 19) ∧
    ReadsArrays v4 reading arrays ∧ Has v3 reading (.bool true) 17 ∧ ¬ Has v3 reading (.bool false) 17 ∧
    Has v4 reading (.bool false) 19 ∧ Has v4 reading (.other 9) 19 ∧ ¬ Has v4 reading (.num 5) 19 := by
  have h17 : ∀ v, Has v3 reading v 17 ↔ v = .big 0 ∨ v = .bool true ∨ v = .other 0 ∨ v = .other 6 := by
    intro v
    have h4 : Has v3 reading v 4 ↔ v = .big 0 := has_of_kind (k := .null) (by decide +kernel)
    have h12 : Has v3 reading v 12 ↔ v = .bool true := has_of_kind (k := .boolLit true) (by decide +kernel)
    have h16 : Has v3 reading v 16 ↔ v = .other 0 ∨ v = .other 6 :=
      has_of_kind (k := .array 15 true) (by decide +kernel)
    rw [has_of_kind (k := .union [4, 12, 16]) (by decide +kernel)]
    simp [KindHas, h4, h12, h16]
  have h19 : ∀ v, Has v4 reading v 19 ↔ v = .big 0 ∨ (∃ b, v = .bool b) ∨ ∃ n, v = .other n := by
    intro v
    have h4 : Has v4 reading v 4 ↔ v = .big 0 := has_of_kind (k := .null) (by decide +kernel)
    have h6 : Has v4 reading v 6 ↔ ∃ b, v = .bool b := has_of_kind (k := .boolean) (by decide +kernel)
    have h18 : Has v4 reading v 18 ↔ ∃ n, v = .other n :=
      has_of_kind (k := .array 7 true) (by decide +kernel)
    rw [has_of_kind kinds_v4.1]
    simp [KindHas, h4, h6, h18]
  refine ⟨reach_v3, by decide +kernel, widen_v3, reads_v4, ?_⟩
  simp [h17, h19]

/-- **C96.** Widening the elements of an array type is widening the array type; other types stay. -/
theorem C96_array_elements {H : Hashes} {st : Store} (h : Reachable H st) (t : Nat) (k : Kind)
    (hk : st.kind? t = some k) :
    ((∃ a r, k = .array a r) → widenArrayElements H st t = widen H st t) ∧
    ((∀ a r, k ≠ .array a r) → widenArrayElements H st t = some (st, t)) := by
  have hi := reachable_inv h
  obtain ⟨r, hc⟩ := hi.core.closed
  constructor
  · rintro ⟨a, q, rfl⟩
    have ka := members_known hi.core hk a (by simp [kindTypes])
    have lt := (hc.types t _ hk).2
    have la := hc.rank t _ hk a (by simp [kindTypes])
    unfold widenArrayElements widen
    rw [widenN_bound hi.core hc _ (st.types.length + 1) t st (by rw [hk]; rfl) hi (Le.refl _) lt (by omega)]
    simp only [widenN, hk]
  · intro hn
    unfold widenArrayElements
    rw [hk]
    cases k <;> first | rfl | exact absurd rfl (hn _ _)

example : v3.kind? 16 = some (.array 15 true) ∧
    widenArrayElements hashes v3 16 = some (after v3 (.type (.array 7 true)), 18) ∧
    v3.kind? 17 = some (.union [4, 12, 16]) ∧ widenArrayElements hashes v3 17 = some (v3, 17) := by
  decide +kernel

/-! ## What is left -/

/-- **C96.** No literal type is left below the unions, intersections and arrays of a widened type. -/
theorem C96_no_literal {H : Hashes} {st st' : Store} (h : Reachable H st) (t t' : Nat)
    (hk : (st.kind? t).isSome) (hw : widen H st t = some (st', t')) : NoLiteral st' t' :=
  widenN_noLiteral _ _ _ _ _ (reachable_inv h) hk hw

/-- **C96.** A type without such literals is returned as it is, and nothing is interned. -/
theorem C96_unchanged {H : Hashes} {st : Store} (h : Reachable H st) (t : Nat)
    (hk : (st.kind? t).isSome) (hn : NoLiteral st t) : widen H st t = some (st, t) := by
  have hi := reachable_inv h
  obtain ⟨r, hc⟩ := hi.core.closed
  exact widenN_id hi.core hc _ t hk (hc.lt hk) hn

/-- **C96.** Widening again, at once or later, changes nothing. -/
theorem C96_again {H : Hashes} {st st' st'' : Store} (h : Reachable H st) (t t' : Nat)
    (hk : (st.kind? t).isSome) (hw : widen H st t = some (st', t')) (hl : Later H st' st'') :
    widen H st'' t' = some (st'', t') := by
  have hi := reachable_inv h
  have g := widenN_good _ _ _ _ _ hi hk hw
  obtain ⟨hi'', hle⟩ := later_le g.ok.inv hl
  obtain ⟨r, hc⟩ := hi''.core.closed
  exact widenN_id hi''.core hc _ t' (hle.known g.ok.known) (hc.lt (hle.known g.ok.known))
    (noLiteral_up g.ok.inv.core hle g.ok.known (widenN_noLiteral _ _ _ _ _ hi hk hw))

example : Exposed v3 17 15 ∧ ¬ NoLiteral v3 17 ∧ Later hashes v4 v4 ∧ NoLiteral v4 19 :=
  have e : Exposed v3 17 15 := .union (m := 16) (ms := [4, 12, 16]) (by decide +kernel) (by simp)
    (.array (a := 15) (r := true) (by decide +kernel) .self)
  ⟨e, fun h => h 15 (.numLit 5) e (by decide +kernel) trivial, .refl,
    C96_no_literal reach_v3 17 19 (by decide +kernel) widen_v3⟩

/-! ## The store -/

/-- **C96.** Widening only adds to the store: the store is one that operations of its interface lead to,
the type returned is there, and every type that was there is still there. -/
theorem C96_store {H : Hashes} {st st' : Store} (h : Reachable H st) (t t' : Nat)
    (hk : (st.kind? t).isSome) (hw : widen H st t = some (st', t')) :
    Later H st st' ∧ (st'.kind? t').isSome ∧ ∀ x k, st.kind? x = some k → st'.kind? x = some k := by
  have g := widenN_good _ _ _ _ _ (reachable_inv h) hk hw
  exact ⟨g.later, g.ok.known, fun x k hx => g.ok.le.kind? hx⟩

/-- **C96.** The bound on the depth that the model puts on the recursion is never met. -/
theorem C96_bound {H : Hashes} {st : Store} (h : Reachable H st) (t : Nat) (hk : (st.kind? t).isSome)
    (n : Nat) (hn : st.types.length ≤ n) : widenN H n st t = widen H st t := by
  have hi := reachable_inv h
  obtain ⟨r, hc⟩ := hi.core.closed
  exact widenN_bound hi.core hc n _ t st hk hi (Le.refl _) (Nat.lt_of_lt_of_le (hc.lt hk) hn) (hc.lt hk)

example : (v3.kind? 17).isSome ∧ v3.types.length ≤ 100 := by decide +kernel

end Verif.Widen
