import Verif.NumKey.Lemmas

/-!
# C94: numbers that are used as keys

Equal numbers are the same numbers, hash alike and are ordered by size. The code treats both zeros
as equal, though they are different values with different hashes, and NaN as neither smaller nor
larger than anything.
-/

namespace Verif.NumKey

/-- **C94.** Two numbers are equal exactly if ECMA-262's SameValueZero says so. -/
theorem C94_eq (a b : F64) : numEq a b = true ↔ SameValueZero (number a) (number b) :=
  numEq_iff a b

/-- **C94.** Equality is an equivalence, as `Eq` demands. -/
theorem C94_equivalence (a b c : F64) : numEq a a = true ∧ (numEq a b = true → numEq b a = true) ∧
    (numEq a b = true → numEq b c = true → numEq a c = true) := by
  simp only [numEq_iff]
  exact ⟨sv0_refl _, sv0_symm, sv0_trans⟩

/-- One, the zeros, and two NaNs. -/
def one : F64 := ⟨0x3ff0000000000000, by decide⟩
def zero : F64 := ⟨0, by decide⟩
def minusZero : F64 := ⟨2 ^ 63, by decide⟩
def nan : F64 := ⟨0x7ff8000000000000, by decide⟩
def nan' : F64 := ⟨0xfff8000000000001, by decide⟩
def infinity : F64 := ⟨0x7ff0000000000000, by decide⟩

example : numEq nan nan' = true ∧ numHash nan = numHash nan' ∧ numEq one one = true := by
  decide +kernel
example : number one = .fin false (2 ^ 1074) := by decide +kernel

/-- **C94, in part.** Operands that are equal are the same values, unless they are zeros; and they
hash alike. -/
theorem C94_key_partial {a b : Val} (h : NoZero b) :
    (valEq a b = true ↔ SameVal a b) ∧ (valEq a b = true → valHash a = valHash b) :=
  ⟨valEq_iff h, fun k => valHash_same ((valEq_iff h).mp k)⟩

/-- **C94, in part.** A value that was computed before is found exactly if it was put into the table,
whatever the table's hash function does. -/
theorem C94_lookup_partial {β : Type} (t : Table β) {k : Val} (h : NoZero k) :
    (∀ v, t.find k = some v → ∃ e ∈ t.entries, SameVal e.1 k ∧ e.2 = v) ∧
    (t.find k = none → ∀ e ∈ t.entries, ¬ SameVal e.1 k) := by
  constructor
  · intro v e
    unfold Table.find at e
    cases f : (t.visit (valHash k)).find? fun e => valEq e.1 k with
    | none => simp [f] at e
    | some x =>
      rw [f] at e
      refine ⟨x, t.within _ _ (List.mem_of_find?_eq_some f), ?_, by simpa using e⟩
      have := List.find?_some f
      exact (valEq_iff h).mp this
  · intro e x hx k'
    have hm := t.same x hx
    rw [valHash_same k'] at hm
    simp only [Table.find, Option.map_eq_none_iff, List.find?_eq_none] at e
    exact e x hm ((valEq_iff h).mpr k')

example : NoZero (.bin (.var 3) 4 (.const (.num one))) := by
  refine ⟨fun x e => (nomatch e), ?_⟩
  rintro x e
  cases e
  rintro ⟨s, e⟩
  have : number one = .fin false (2 ^ 1074) := by decide +kernel
  rw [this] at e
  injection e with _ e
  exact absurd e (by decide +kernel)

/-- **C94 fails for zeros.** They are equal, but they are two values. -/
theorem C94_zero_violated :
    numEq zero minusZero = true ∧ number zero ≠ number minusZero ∧
      numHash zero ≠ numHash minusZero := by
  decide +kernel

/-- A table in which `x / 0` was entered. Its entries fit into one group and their hashes agree in
the bits that are compared. -/
def table : Table Nat where
  entries := [(.bin (.var 1) 4 (.const (.num zero)), 2)]
  visit := fun _ => [(.bin (.var 1) 4 (.const (.num zero)), 2)]
  within := fun _ _ h => h
  same := fun _ h => h

/-- **C94 fails for zeros.** The optimizer can find `x / 0` when it looks for `x / -0`, which has the
opposite sign. -/
theorem C94_lookup_violated : table.find (.bin (.var 1) 4 (.const (.num minusZero))) = some 2 ∧
    ∀ e ∈ table.entries, ¬ SameVal e.1 (.bin (.var 1) 4 (.const (.num minusZero))) := by
  refine ⟨by decide +kernel, ?_⟩
  intro e he
  obtain rfl := List.mem_singleton.mp he
  intro k
  cases k with
  | bin _ _ h =>
    generalize hz : zero = z at h
    generalize hm : minusZero = m at h
    cases h with
    | const h =>
      cases h with
      | num h => subst hz; subst hm; exact absurd h (by decide +kernel)
      | refl => exact absurd (hz.trans hm.symm) (by decide +kernel)
    | refl => exact absurd (hz.trans hm.symm) (by decide +kernel)

/-! ## Order -/

theorem less_iff {x y : F64} (hx : x.isNan = false) (hy : y.isNan = false) :
    Less (number x) (number y) ↔ x.val < y.val := by
  have ex := exp_le x
  have ey := exp_le y
  rw [number_eq, number_eq]
  have pos : ∀ z : F64, z.exp = 2047 → 0 < z.units := fun z h =>
    Nat.lt_of_lt_of_le (Nat.mul_pos (by decide) (Nat.pow_pos (by decide))) (units_lo (by omega))
  unfold F64.isNan at hx hy
  unfold F64.val
  by_cases a : x.exp = 2047 <;> by_cases b : y.exp = 2047
  · have fx : x.frac = 0 := by simpa [a] using hx
    have fy : y.frac = 0 := by simpa [b] using hy
    have px := pos x a
    have e : x.units = y.units := by simp only [F64.units, a, b, fx, fy]
    rw [if_pos a, if_pos b, if_pos fx, if_pos fy]
    cases x.neg <;> cases y.neg <;> simp [Less] <;> omega
  · have fx : x.frac = 0 := by simpa [a] using hx
    have k := units_exp (x := y) (y := x) (by omega)
    rw [if_pos a, if_neg b, if_pos fx]
    cases x.neg <;> cases y.neg <;> simp [Less] <;> omega
  · have fy : y.frac = 0 := by simpa [b] using hy
    have k := units_exp (x := x) (y := y) (by omega)
    rw [if_neg a, if_pos b, if_pos fy]
    cases x.neg <;> cases y.neg <;> simp [Less] <;> omega
  · rw [if_neg a, if_neg b]
    exact Iff.rfl

/-- **C94, in part.** Numbers are ordered by size, if they are not NaN, and the order agrees with
equality. -/
theorem C94_order_partial {a b : F64} (ha : number a ≠ .nan) (hb : number b ≠ .nan) :
    (numCmp a b = .lt ↔ Less (number a) (number b)) ∧
    (numCmp a b = .gt ↔ Less (number b) (number a)) ∧
    (numCmp a b = .eq ↔ numEq a b = true) := by
  have na : a.isNan = false := by
    cases h : a.isNan
    · rfl
    · exact absurd ((nan_iff a).mp h) ha
  have nb : b.isNan = false := by
    cases h : b.isNan
    · rfl
    · exact absurd ((nan_iff b).mp h) hb
  rw [less_iff na nb, less_iff nb na]
  simp only [numCmp, fcmp, na, nb, Bool.or_self, Bool.false_eq_true, if_false, Option.getD_some,
    numEq, feq, Bool.not_false, Bool.true_and, beq_iff_eq]
  refine ⟨Int.compare_eq_lt, Int.compare_eq_gt, Int.compare_eq_eq⟩

/-- **C94, in part.** So it is a linear order. -/
theorem C94_transitive_partial {a b c : F64} (ha : number a ≠ .nan) (hb : number b ≠ .nan)
    (hc : number c ≠ .nan) (h : numCmp a b ≠ .gt) (k : numCmp b c ≠ .gt) : numCmp a c ≠ .gt := by
  have n : ∀ x : F64, number x ≠ .nan → x.isNan = false := fun x hx => by
    cases h : x.isNan
    · rfl
    · exact absurd ((nan_iff x).mp h) hx
  rw [Ne, (C94_order_partial ha hb).2.1, less_iff (n b hb) (n a ha)] at h
  rw [Ne, (C94_order_partial hb hc).2.1, less_iff (n c hc) (n b hb)] at k
  rw [Ne, (C94_order_partial ha hc).2.1, less_iff (n c hc) (n a ha)]
  omega

example : number infinity ≠ .nan ∧ numCmp one infinity = .lt ∧ numCmp minusZero zero = .eq := by
  decide +kernel

/-- **C94 fails for NaN.** It compares as equal to one and to zero, to which it is not equal, and
which are not equal. -/
theorem C94_order_violated :
    numCmp one nan = .eq ∧ numCmp nan zero = .eq ∧ numCmp one zero = .gt ∧
      numEq one nan = false := by
  decide +kernel

end Verif.NumKey
