import Verif.NumKey.Spec

/-!
# Lemmas about numbers as keys
-/

namespace Verif.NumKey

theorem exp_eq (x : F64) : x.bits / 2 ^ 52 % 2048 = x.exp := by
  unfold F64.exp; omega

theorem exp_le (x : F64) : x.exp ≤ 2047 := by
  have := x.lt
  unfold F64.exp; omega

theorem frac_lt (x : F64) : x.frac < 2 ^ 52 := Nat.mod_lt _ (by decide)

theorem bits_eq (x : F64) : x.bits = (if x.neg then 2 ^ 63 else 0) + x.exp * 2 ^ 52 + x.frac := by
  have := x.lt
  unfold F64.neg F64.exp F64.frac
  by_cases h : 2 ^ 63 ≤ x.bits
  · simp only [h, decide_true, if_true]; omega
  · simp only [h, decide_false, Bool.false_eq_true, if_false]; omega

theorem F64.ext {x y : F64} (h : x.bits = y.bits) : x = y := by
  cases x; cases y; cases h; rfl

/-- The sizes of the numbers with exponent `e`. -/
theorem units_lo {x : F64} (h : x.exp ≠ 0) : 2 ^ 52 * 2 ^ (x.exp - 1) ≤ x.units := by
  rw [F64.units, if_neg h]
  exact Nat.mul_le_mul_right _ (Nat.le_add_right _ _)

theorem units_hi (x : F64) : x.units < 2 ^ 52 * 2 ^ x.exp := by
  unfold F64.units
  have f := frac_lt x
  split
  · next h => rw [h, Nat.pow_zero, Nat.mul_one]; exact f
  · next h =>
    obtain ⟨e, he⟩ := Nat.exists_eq_succ_of_ne_zero h
    rw [he, Nat.succ_sub_one, Nat.pow_succ (n := 2) (m := e), Nat.mul_comm (2 ^ e) 2, ← Nat.mul_assoc]
    exact Nat.mul_lt_mul_of_pos_right (by omega) (Nat.pow_pos (by decide))

theorem units_exp {x y : F64} (h : x.exp < y.exp) : x.units < y.units := by
  refine Nat.lt_of_lt_of_le (units_hi x) (Nat.le_trans ?_ (units_lo (by omega)))
  exact Nat.mul_le_mul_left _ (Nat.pow_le_pow_right (by decide) (by omega))

theorem units_inj {x y : F64} (h : x.units = y.units) : x.exp = y.exp ∧ x.frac = y.frac := by
  have e : x.exp = y.exp := by
    rcases Nat.lt_trichotomy x.exp y.exp with k | k | k
    · have := units_exp k; omega
    · exact k
    · have := units_exp k; omega
  refine ⟨e, ?_⟩
  unfold F64.units at h
  rw [e] at h
  split at h
  · exact h
  · have := Nat.eq_of_mul_eq_mul_right (Nat.pow_pos (by decide)) h
    omega

theorem number_eq (x : F64) : number x =
    if x.exp = 2047 then (if x.frac = 0 then .inf x.neg else .nan) else .fin x.neg x.units := by
  have : number x = if x.exp = 2047 then (if x.frac = 0 then .inf x.neg else .nan)
      else if x.exp = 0 then .fin x.neg x.frac
      else .fin x.neg ((2 ^ 52 + x.frac) * 2 ^ (x.exp - 1)) := by
    simp only [number, exp_eq]; rfl
  rw [this]
  unfold F64.units
  split
  · rfl
  · split <;> rfl

theorem nan_iff (x : F64) : x.isNan = true ↔ number x = .nan := by
  rw [number_eq, F64.isNan]
  by_cases h : x.exp = 2047 <;> by_cases k : x.frac = 0 <;> simp [h, k]

theorem zero_iff (x : F64) : IsZero (number x) ↔ x.units = 0 := by
  rw [number_eq, IsZero]
  split
  · next h =>
    have := units_lo (x := x) (by omega)
    have : 0 < 2 ^ 52 * 2 ^ (x.exp - 1) := Nat.mul_pos (by decide) (Nat.pow_pos (by decide))
    constructor
    · rintro ⟨s, e⟩
      split at e <;> cases e
    · intro e; omega
  · constructor
    · rintro ⟨s, e⟩; injection e
    · intro e; exact ⟨x.neg, by rw [e]⟩

theorem val_eq_iff (x y : F64) :
    x.val = y.val ↔ x.units = y.units ∧ (x.neg = y.neg ∨ x.units = 0) := by
  unfold F64.val
  cases x.neg <;> cases y.neg <;> simp <;> omega

/-- Numbers that are not NaN: the sign and the size say all. -/
theorem number_inj {x y : F64} (hx : x.isNan = false) (hy : y.isNan = false) :
    number x = number y ↔ x.neg = y.neg ∧ x.units = y.units := by
  constructor
  · intro h
    rw [number_eq, number_eq] at h
    unfold F64.isNan at hx hy
    by_cases a : x.exp = 2047 <;> by_cases b : y.exp = 2047
    · have fx : x.frac = 0 := by simpa [a] using hx
      have fy : y.frac = 0 := by simpa [b] using hy
      rw [if_pos a, if_pos b, if_pos fx, if_pos fy] at h
      have hn : x.neg = y.neg := by injection h
      refine ⟨hn, ?_⟩
      unfold F64.units; rw [a, b, fx, fy]
    · rw [if_pos a, if_neg b] at h
      split at h <;> cases h
    · rw [if_neg a, if_pos b] at h
      split at h <;> cases h
    · rw [if_neg a, if_neg b] at h
      injection h with h1 h2
      exact ⟨h1, h2⟩
  · rintro ⟨h1, h2⟩
    obtain ⟨e, f⟩ := units_inj h2
    rw [number_eq, number_eq, h1, h2, e, f]

theorem bits_inj {x y : F64} (h : x.neg = y.neg) (k : x.units = y.units) : x = y := by
  obtain ⟨e, f⟩ := units_inj k
  apply F64.ext
  rw [bits_eq x, bits_eq y, h, e, f]

theorem numEq_iff (x y : F64) : numEq x y = true ↔ SameValueZero (number x) (number y) := by
  unfold numEq feq SameValueZero
  cases hx : x.isNan <;> cases hy : y.isNan
  · have e : ((∃ s t, number x = .fin s 0 ∧ number y = .fin t 0) ↔ x.units = 0 ∧ y.units = 0) := by
      rw [← zero_iff, ← zero_iff]
      exact ⟨fun ⟨s, t, a, b⟩ => ⟨⟨s, a⟩, ⟨t, b⟩⟩, fun ⟨⟨s, a⟩, ⟨t, b⟩⟩ => ⟨s, t, a, b⟩⟩
    rw [number_inj hx hy, e]
    simp only [Bool.false_eq_true, if_false, Bool.not_false, Bool.true_and, beq_iff_eq, val_eq_iff]
    constructor
    · rintro ⟨h1, h2 | h2⟩
      · exact .inl ⟨h2, h1⟩
      · exact .inr ⟨h2, h1.symm.trans h2⟩
    · rintro (⟨h1, h2⟩ | ⟨h1, h2⟩)
      · exact ⟨h2, .inl h1⟩
      · exact ⟨h1.trans h2.symm, .inr h1⟩
  · have a := (nan_iff y).mp hy
    have b : number x ≠ .nan := fun k => by simp [(nan_iff x).mpr k] at hx
    simp [a, b]
  · have a := (nan_iff x).mp hx
    have b : number y ≠ .nan := fun k => by simp [(nan_iff y).mpr k] at hy
    simp [a, Ne.symm b]
  · simp [(nan_iff x).mp hx, (nan_iff y).mp hy]

theorem sv0_refl (a : Number) : SameValueZero a a := Or.inl rfl

theorem sv0_symm {a b : Number} : SameValueZero a b → SameValueZero b a
  | .inl h => .inl h.symm
  | .inr ⟨s, t, a, b⟩ => .inr ⟨t, s, b, a⟩

theorem sv0_trans {a b c : Number} : SameValueZero a b → SameValueZero b c → SameValueZero a c := by
  rintro (rfl | ⟨s, t, rfl, rfl⟩) k
  · exact k
  · rcases k with rfl | ⟨u, v, -, rfl⟩
    · exact .inr ⟨s, t, rfl, rfl⟩
    · exact .inr ⟨s, v, rfl, rfl⟩

theorem sv0_nonzero {a b : Number} (h : ¬ IsZero b) : SameValueZero a b ↔ a = b :=
  ⟨fun k => k.elim id fun ⟨_, t, _, e⟩ => absurd ⟨t, e⟩ h, .inl⟩

/-! ## Constants, arguments and operations -/

theorem constEq_iff {a b : Const} (h : ∀ x, b = .num x → ¬ IsZero (number x)) :
    constEq a b = true ↔ SameConst a b := by
  constructor
  · intro e
    cases a <;> cases b <;> simp only [constEq, beq_iff_eq, Bool.false_eq_true] at e
    case num.num x y => exact .num ((sv0_nonzero (h y rfl)).mp ((numEq_iff x y).mp e))
    all_goals first | (subst e; exact .refl _) | exact .refl _
  · intro e
    cases e with
    | num e => exact (numEq_iff _ _).mpr (.inl e)
    | refl => cases a <;> simp [constEq, numEq_iff, sv0_refl]

theorem argEq_iff {a b : Arg} (h : ∀ x, b = .const (.num x) → ¬ IsZero (number x)) :
    argEq a b = true ↔ SameArg a b := by
  constructor
  · intro e
    cases a <;> cases b <;> simp only [argEq, beq_iff_eq, Bool.false_eq_true] at e
    case const.const c d =>
      exact .const ((constEq_iff fun x k => h x (by rw [k])).mp e)
    all_goals subst e; exact .refl _
  · intro e
    cases e with
    | const e => exact (constEq_iff fun x k => h x (by rw [k])).mpr e
    | refl =>
      cases a with
      | const c => exact (constEq_iff fun x k => h x (by rw [k])).mpr (.refl _)
      | _ => simp [argEq]

theorem valEq_iff {a b : Val} (h : NoZero b) : valEq a b = true ↔ SameVal a b := by
  cases a <;> cases b
  · next l o r l' o' r' =>
    simp only [valEq, Bool.and_eq_true, beq_iff_eq, argEq_iff h.1, argEq_iff h.2]
    constructor
    · rintro ⟨⟨h1, rfl⟩, h2⟩; exact .bin _ h1 h2
    · intro k; cases k with | bin _ h1 h2 => exact ⟨⟨h1, rfl⟩, h2⟩
  · exact ⟨fun k => by simp [valEq] at k, fun k => by cases k⟩
  · exact ⟨fun k => by simp [valEq] at k, fun k => by cases k⟩
  · next o a o' a' =>
    simp only [valEq, Bool.and_eq_true, beq_iff_eq, argEq_iff h]
    constructor
    · rintro ⟨rfl, h2⟩; exact .un _ h2
    · intro k; cases k with | un _ h2 => exact ⟨rfl, h2⟩

theorem numHash_same {x y : F64} (h : number x = number y) : numHash x = numHash y := by
  unfold numHash
  cases hx : x.isNan
  · cases hy : y.isNan
    · obtain ⟨a, b⟩ := (number_inj hx hy).mp h
      rw [bits_inj a b]
    · have := (nan_iff x).mpr (h.trans ((nan_iff y).mp hy))
      simp [this] at hx
  · have := (nan_iff y).mpr (h.symm.trans ((nan_iff x).mp hx))
    simp [this]

theorem constHash_same {a b : Const} (h : SameConst a b) : constHash a = constHash b := by
  cases h with
  | num e => simp only [constHash, numHash_same e]
  | refl => rfl

theorem argHash_same {a b : Arg} (h : SameArg a b) : argHash a = argHash b := by
  cases h with
  | const e => simp only [argHash, constHash_same e]
  | refl => rfl

theorem valHash_same {a b : Val} (h : SameVal a b) : valHash a = valHash b := by
  cases h with
  | bin o h1 h2 => simp only [valHash, argHash_same h1, argHash_same h2]
  | un o h1 => simp only [valHash, argHash_same h1]

end Verif.NumKey
