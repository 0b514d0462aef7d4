import Verif.Eval.Theorems
import Verif.Values.Lemmas
/-!
# C34: `+`, and the functions of `Math`
-/

namespace Verif.Eval

set_option exponentiation.threshold 4000

/-! ## Numbers as text -/

/-- The digits of a number other than zero: there are some, and the last is not `0`. -/
def GoodDigits (L : Lib) : Prop :=
  ∀ m, m ≠ 0 → ∃ ds d, (L.digits (.fin false m)).1 = ds ++ [d] ∧ d ≠ 48

/-- The numbers whose text is the one ECMA-262 prescribes: NaN, zero without a sign, and numbers from
`10 ^ -6` up to `10 ^ 16` or below `10 ^ -6` except those with the point at `-5`. -/
def TextOk (L : Lib) : F64 → Prop
  | .nan => True
  | .inf _ => False
  | .fin neg m =>
    if m = 0 then neg = false
    else
      ((L.digits (.fin false m)).2 ≤ 16 ∧ -5 < (L.digits (.fin false m)).2) ∨ (L.digits (.fin false m)).2 < -5

theorem strip_point0 (t : List Nat) : stripPoint0 (t ++ [46, 48]) = t := by
  unfold stripPoint0
  simp

theorem strip_other {t : List Nat} {c d : Nat} (h : d ≠ 48 ∨ c ≠ 46) : stripPoint0 (t ++ [c, d]) = t ++ [c, d] := by
  unfold stripPoint0
  split
  · rename_i r e
    simp only [List.reverse_append, List.reverse_cons, List.reverse_nil, List.nil_append, List.cons_append,
      List.cons.injEq] at e
    omega
  · rfl

theorem strip_last {t : List Nat} {d : Nat} (h : d ≠ 48) : stripPoint0 (t ++ [d]) = t ++ [d] := by
  unfold stripPoint0
  split
  · rename_i r e
    simp only [List.reverse_append, List.reverse_cons, List.reverse_nil, List.nil_append, List.cons_append,
      List.cons.injEq] at e
    omega
  · rfl

/-- The end of an exponent is no `.0`. -/
theorem strip_exp (t : List Nat) (k : Nat) :
    stripPoint0 (t ++ 45 :: Values.toDigits k) = t ++ 45 :: Values.toDigits k := by
  obtain ⟨h1, h2⟩ := Values.toDigits_digits k
  generalize Values.toDigits k = ds at *
  obtain ⟨xs, x, rfl⟩ : ∃ xs x, ds = xs ++ [x] := ⟨ds.dropLast, ds.getLast h1, (List.dropLast_concat_getLast h1).symm⟩
  by_cases hx : xs = []
  · subst hx
    exact strip_other (Or.inr (by decide))
  · obtain ⟨ys, y, rfl⟩ : ∃ ys y, xs = ys ++ [y] :=
      ⟨xs.dropLast, xs.getLast hx, (List.dropLast_concat_getLast hx).symm⟩
    have := h2 y (by simp)
    have e : t ++ 45 :: (ys ++ [y] ++ [x]) = (t ++ 45 :: ys) ++ [y, x] := by simp
    rw [e]
    exact strip_other (Or.inr (by omega))

/-- The texts agree, with anything before them (the sign). -/
theorem text_eq (p ds : List Nat) (d : Nat) (n : Int) (hd : d ≠ 48) (hn : (n ≤ 16 ∧ -5 < n) ∨ n < -5) :
    stripPoint0 (p ++ ryuText (ds ++ [d]) n) = p ++ numberText (ds ++ [d]) n := by
  have hl : (ds ++ [d]).length = ds.length + 1 := by simp
  unfold ryuText numberText
  by_cases h1 : ((ds ++ [d]).length : Int) ≤ n ∧ n ≤ 16
  · rw [if_pos h1, if_pos (by omega), ← List.append_assoc, strip_point0]
  · rw [if_neg h1]
    by_cases h2 : 0 < n ∧ n ≤ 16
    · rw [if_pos h2, if_neg (by omega), if_pos (by omega)]
      have hk : n.toNat ≤ ds.length := by omega
      rw [List.drop_append_of_le_length hk, ← List.cons_append, ← List.append_assoc, ← List.append_assoc,
        strip_last hd]
    · rw [if_neg h2]
      by_cases h3 : -5 < n ∧ n ≤ 0
      · rw [if_pos h3, if_neg (by omega), if_neg (by omega), if_pos (by omega)]
        rw [← List.append_assoc, ← List.append_assoc, strip_last hd]
        simp
      · rw [if_neg h3, if_neg (by omega), if_neg (by omega), if_neg (by omega)]
        have hneg : n - 1 < 0 := by omega
        have he : intText (n - 1) = 45 :: Values.toDigits (n - 1).natAbs := by
          unfold intText; rw [if_pos hneg]
        simp only [he, if_pos hneg]
        cases ds with
        | nil =>
          have := strip_exp (p ++ [d, 101]) (n - 1).natAbs
          simpa using this
        | cons c cs =>
          have := strip_exp (p ++ c :: 46 :: (cs ++ [d]) ++ [101]) (n - 1).natAbs
          cases cs with
          | nil => simpa using this
          | cons x xs => simpa using this

theorem display_iff {L : Lib} (hL : GoodDigits L) {x : F64} (h : TextOk L x) (t : List Nat) :
    NumToString L x t ↔ t = displayNum L x := by
  cases x with
  | nan =>
    constructor
    · intro h; cases h; rfl
    · rintro rfl; exact .nan
  | inf s => exact h.elim
  | fin neg m =>
    by_cases hm : m = 0
    · subst hm
      simp only [TextOk, if_true] at h
      subst h
      constructor
      · intro h
        cases h with
        | zero => rfl
        | pos h => exact absurd rfl h
      · rintro rfl; exact .zero
    · simp only [TextOk, if_neg hm] at h
      obtain ⟨ds, d, e, hd⟩ := hL m hm
      have key := fun p => text_eq p ds d _ hd h
      rw [← e] at key
      cases neg with
      | false =>
        have e2 : displayNum L (.fin false m) = numberText (L.digits (.fin false m)).1 (L.digits (.fin false m)).2 := by
          have := key []
          simpa [displayNum, hm] using this
        rw [e2]
        constructor
        · intro h
          cases h with
          | zero => exact absurd rfl hm
          | pos h => rfl
        · rintro rfl; exact .pos hm
      | true =>
        have e2 : displayNum L (.fin true m) =
            45 :: numberText (L.digits (.fin false m)).1 (L.digits (.fin false m)).2 := by
          have := key [45]
          simpa [displayNum, hm] using this
        rw [e2]
        constructor
        · intro h
          cases h with
          | zero => exact absurd rfl hm
          | neg h => rfl
        · rintro rfl; exact .neg hm

/-- The operands of `+` for which it is folded rightly: what is not folded at all, two numbers, two
strings, or a string and a number that meets `TextOk`. -/
def AddOk (L : Lib) : Const → Const → Prop
  | .num _, .num _ => True
  | .str _, .str _ => True
  | .num x, .str _ => TextOk L x
  | .str _, .num x => TextOk L x
  | _, _ => False

/-- **C34, `+`** on numbers and strings, for numbers whose text is the one ECMA-262 prescribes. -/
theorem C34_add_partial (L : Lib) (hL : GoodDigits L) (a b c : Const) (h : AddOk L a b) :
    evalBin L .add a b = some (some c) ↔ JsBin L .add a b c := by
  cases a with
  | num x =>
    cases b with
    | num y =>
      simp only [evalBin, Option.some.injEq]
      constructor
      · rintro rfl; exact .addNum
      · intro h
        cases h with
        | addNum => rfl
        | num _ _ h => cases h
    | str s =>
      simp only [evalBin, Option.some.injEq]
      constructor
      · rintro rfl; exact .addNumStr ((display_iff hL h _).2 rfl)
      · intro h'
        cases h' with
        | addNumStr h1 => rw [(display_iff hL h _).1 h1]
        | num _ _ h => cases h
    | bigint v => exact h.elim
    | bool v => exact h.elim
    | null => exact h.elim
    | undef => exact h.elim
  | str s =>
    cases b with
    | num y =>
      simp only [evalBin, Option.some.injEq]
      constructor
      · rintro rfl; exact .addStrNum ((display_iff hL h _).2 rfl)
      · intro h'
        cases h' with
        | addStrNum h1 => rw [(display_iff hL h _).1 h1]
        | num _ _ h => cases h
    | str t =>
      simp only [evalBin, Option.some.injEq]
      constructor
      · rintro rfl; exact .addStr
      · intro h
        cases h with
        | addStr => rfl
        | num _ _ h => cases h
    | bigint v => exact h.elim
    | bool v => exact h.elim
    | null => exact h.elim
    | undef => exact h.elim
  | bigint v => exact h.elim
  | bool v => exact h.elim
  | null => exact h.elim
  | undef => exact h.elim

/-- A library that gives the digits of 1.5 (and of nothing else). -/
def digitsLib : Lib := ⟨fun _ => ([49, 53], 1), fun x _ => x, fun _ _ => none⟩

/-- `1.5 + "a"` is `"1.5a"`. -/
example : JsBin digitsLib .add (.num (.fin false (3 * scale / 2))) (.str [97]) (.str [49, 46, 53, 97]) :=
  (C34_add_partial digitsLib (fun _ _ => ⟨[49], 53, rfl, by decide⟩) _ _ _ (by
    show TextOk digitsLib (.fin false (3 * scale / 2))
    simp only [TextOk]
    rw [if_neg (by decide +kernel)]
    left; decide)).1 (by decide +kernel)

/-- **C34 is violated by the text of infinity**: `Infinity + ""` is folded to `"1e400"`. -/
theorem C34_add_violated_infinity (L : Lib) :
    evalBin L .add (.num (.inf false)) (.str []) = some (some (.str [49, 101, 52, 48, 48])) ∧
      ¬ JsBin L .add (.num (.inf false)) (.str []) (.str [49, 101, 52, 48, 48]) := by
  refine ⟨rfl, fun h => ?_⟩
  generalize hc : Const.str [49, 101, 52, 48, 48] = c at h
  cases h with
  | addNumStr h => cases h; simp at hc
  | num _ _ h => cases h

/-- **C34 is violated by the text of minus zero**: `-0 + ""` is folded to `"-0"`. -/
theorem C34_add_violated_zero (L : Lib) :
    evalBin L .add (.num (.fin true 0)) (.str []) = some (some (.str [45, 48])) ∧
      ¬ JsBin L .add (.num (.fin true 0)) (.str []) (.str [45, 48]) := by
  refine ⟨rfl, fun h => ?_⟩
  generalize hc : Const.str [45, 48] = c at h
  cases h with
  | addNumStr h =>
    cases h with
    | zero => simp at hc
    | neg h => exact absurd rfl h
  | num _ _ h => cases h

/-- **C34 is violated by the text of large numbers**: a number whose digits are `1` with the point at 22
(`1e21`) is folded to `"1e21"`; ECMA-262 says `"1e+21"`. -/
theorem C34_add_violated_large (L : Lib) (m : Nat) (hm : m ≠ 0) (h : L.digits (.fin false m) = ([49], 22)) :
    evalBin L .add (.num (.fin false m)) (.str []) = some (some (.str [49, 101, 50, 49])) ∧
      NumToString L (.fin false m) [49, 101, 43, 50, 49] := by
  have e1 : ryuText [49] 22 = [49, 101, 50, 49] := by decide +kernel
  have e2 : stripPoint0 [49, 101, 50, 49] = [49, 101, 50, 49] := by decide +kernel
  refine ⟨by simp [evalBin, displayNum, hm, h, e1, e2], ?_⟩
  have := NumToString.pos (L := L) hm
  rw [h] at this
  have e3 : numberText [49] 22 = [49, 101, 43, 50, 49] := by decide +kernel
  rwa [e3] at this

/-! ## Functions of `Math` -/

theorem units_pos (m : Nat) : F64.units false m = m := rfl
theorem units_neg (m : Nat) : F64.units true m = -(m : Int) := rfl

/-- **C34, `Math.abs`, `ceil`, `floor` and `trunc`** are folded to what ECMA-262 gives. -/
theorem C34_math (f : MathFn) (x y : F64) (hf : f ≠ .round) : JsMath f x y ↔ y = evalMath f x := by
  have hs := scale_pos
  have dm : ∀ m, scale * (m / scale) + m % scale = m := fun m => Nat.div_add_mod m scale
  have ml : ∀ m, m % scale < scale := fun m => Nat.mod_lt m hs
  have uniq : ∀ (q t : Nat), scale * q < scale * t + scale → scale * t < scale * q + scale → q = t := by
    intro q t h1 h2
    have a := Nat.lt_of_mul_lt_mul_left (a := scale) (b := q) (c := t + 1) (by rw [Nat.mul_add]; omega)
    have b := Nat.lt_of_mul_lt_mul_left (a := scale) (b := t) (c := q + 1) (by rw [Nat.mul_add]; omega)
    omega
  cases f with
  | round => exact absurd rfl hf
  | abs =>
    constructor
    · intro h
      cases h with
      | absFin => rfl
      | absInf => rfl
      | absNan => rfl
      | inf h => exact absurd rfl h
      | nan h => exact absurd rfl h
    · rintro rfl
      cases x with
      | nan => exact .absNan
      | inf s => exact .absInf
      | fin s m => exact .absFin
  | floor =>
    cases x with
    | nan => constructor
             · intro h; cases h; rfl
             · rintro rfl; exact .nan (by simp)
    | inf s => constructor
               · intro h; cases h; rfl
               · rintro rfl; exact .inf (by simp)
    | fin s m =>
      have d := dm m
      have l := ml m
      show JsMath .floor (.fin s m) y ↔ y = F64.floor (.fin s m)
      unfold F64.floor
      simp only
      constructor
      · intro h
        cases h with
        | @floor _ _ r h1 h2 h3 =>
          obtain ⟨q, rfl⟩ := h1
          cases s with
          | false =>
            rw [if_neg (by simp)]
            rw [units_pos, units_pos] at h2 h3
            rw [uniq q (m / scale) (by omega) (by omega), Nat.mul_comm]
          | true =>
            rw [units_neg, units_neg] at h2 h3
            by_cases hz : m % scale = 0
            · rw [if_neg (by simp [hz]), uniq q (m / scale) (by omega) (by omega), Nat.mul_comm]
            · rw [if_pos ⟨rfl, hz⟩, uniq q (m / scale + 1) (by rw [Nat.mul_add]; omega) (by rw [Nat.mul_add]; omega),
                Nat.mul_comm]
      · rintro rfl
        have e1 : m / scale * scale = scale * (m / scale) := Nat.mul_comm ..
        have e2 : (m / scale + 1) * scale = scale * (m / scale) + scale := by rw [Nat.mul_comm, Nat.mul_add]; omega
        split
        · rename_i h
          obtain ⟨rfl, hz⟩ := h
          refine .floor (Nat.dvd_mul_left _ _) ?_ ?_ <;> rw [e2, units_neg, units_neg] <;> omega
        · rename_i h
          cases s with
          | false => refine .floor (Nat.dvd_mul_left _ _) ?_ ?_ <;> rw [e1, units_pos, units_pos] <;> omega
          | true =>
            have hz : m % scale = 0 := Decidable.byContradiction fun hz => h ⟨rfl, hz⟩
            refine .floor (Nat.dvd_mul_left _ _) ?_ ?_ <;> rw [e1, units_neg, units_neg] <;> omega
  | ceil =>
    cases x with
    | nan => constructor
             · intro h; cases h; rfl
             · rintro rfl; exact .nan (by simp)
    | inf s => constructor
               · intro h; cases h; rfl
               · rintro rfl; exact .inf (by simp)
    | fin s m =>
      have d := dm m
      have l := ml m
      show JsMath .ceil (.fin s m) y ↔ y = F64.ceil (.fin s m)
      unfold F64.ceil
      simp only
      constructor
      · intro h
        cases h with
        | @ceil _ _ r h1 h2 h3 =>
          obtain ⟨q, rfl⟩ := h1
          cases s with
          | true =>
            rw [if_neg (by simp)]
            rw [units_neg, units_neg] at h2 h3
            rw [uniq q (m / scale) (by omega) (by omega), Nat.mul_comm]
          | false =>
            rw [units_pos, units_pos] at h2 h3
            by_cases hz : m % scale = 0
            · rw [if_neg (by simp [hz]), uniq q (m / scale) (by omega) (by omega), Nat.mul_comm]
            · rw [if_pos ⟨by simp, hz⟩, uniq q (m / scale + 1) (by rw [Nat.mul_add]; omega) (by rw [Nat.mul_add]; omega),
                Nat.mul_comm]
      · rintro rfl
        have e1 : m / scale * scale = scale * (m / scale) := Nat.mul_comm ..
        have e2 : (m / scale + 1) * scale = scale * (m / scale) + scale := by rw [Nat.mul_comm, Nat.mul_add]; omega
        split
        · rename_i h
          obtain ⟨hs, hz⟩ := h
          have : s = false := by simpa using hs
          subst this
          refine .ceil (Nat.dvd_mul_left _ _) ?_ ?_ <;> rw [e2, units_pos, units_pos] <;> omega
        · rename_i h
          cases s with
          | true => refine .ceil (Nat.dvd_mul_left _ _) ?_ ?_ <;> rw [e1, units_neg, units_neg] <;> omega
          | false =>
            have hz : m % scale = 0 := Decidable.byContradiction fun hz => h ⟨by simp, hz⟩
            refine .ceil (Nat.dvd_mul_left _ _) ?_ ?_ <;> rw [e1, units_pos, units_pos] <;> omega
  | trunc =>
    cases x with
    | nan => constructor
             · intro h; cases h; rfl
             · rintro rfl; exact .nan (by simp)
    | inf s => constructor
               · intro h; cases h; rfl
               · rintro rfl; exact .inf (by simp)
    | fin s m =>
      have d := dm m
      have l := ml m
      show _ ↔ y = .fin s (m / scale * scale)
      rw [Nat.mul_comm]
      constructor
      · intro h
        cases h with
        | @trunc _ _ r h1 h2 h3 =>
          obtain ⟨q, rfl⟩ := h1
          rw [uniq q (m / scale) (by omega) (by omega)]
      · rintro rfl
        exact .trunc (Nat.dvd_mul_right _ _) (by omega) (by omega)

/-- `Math.floor(-1.5)` is -2. -/
example : JsMath .floor (.fin true (3 * scale / 2)) (number (-2)) :=
  (C34_math .floor _ _ (by simp)).2 (by decide +kernel)

/-- **C34, `Math.round`** of numbers that are not negative, or not halfway between integers. -/
theorem C34_round_partial (s : Bool) (m : Nat) (y : F64) (h : s = false ∨ 2 * (m % scale) ≠ scale) :
    JsMath .round (.fin s m) y ↔ y = evalMath .round (.fin s m) := by
  have hs := scale_pos
  have he : 2 * (scale / 2) = scale := by decide +kernel
  have d := Nat.div_add_mod (m + scale / 2) scale
  have l := Nat.mod_lt (m + scale / 2) hs
  have d2 := Nat.div_add_mod m scale
  have l2 := Nat.mod_lt m hs
  have uniq : ∀ (q t : Nat), scale * q < scale * t + scale → scale * t < scale * q + scale → q = t := by
    intro q t h1 h2
    have a := Nat.lt_of_mul_lt_mul_left (a := scale) (b := q) (c := t + 1) (by rw [Nat.mul_add]; omega)
    have b := Nat.lt_of_mul_lt_mul_left (a := scale) (b := t) (c := q + 1) (by rw [Nat.mul_add]; omega)
    omega
  -- halfway: the remainder of `m + scale / 2` is zero
  have hz : s = true → (m + scale / 2) % scale ≠ 0 := by
    intro e h0
    rcases h with h | h
    · rw [e] at h; cases h
    · have h1 : (m % scale + scale / 2) % scale = 0 := by rw [Nat.mod_add_mod]; exact h0
      have h2 : m % scale + scale / 2 < 2 * scale := by omega
      rcases Nat.lt_or_ge (m % scale + scale / 2) scale with h3 | h3
      · rw [Nat.mod_eq_of_lt h3] at h1
        omega
      · rw [Nat.mod_eq_sub_mod h3, Nat.mod_eq_of_lt (by omega)] at h1
        omega
  show _ ↔ y = .fin s ((m + scale / 2) / scale * scale)
  rw [Nat.mul_comm]
  generalize (m + scale / 2) / scale = t at *
  generalize (m + scale / 2) % scale = r at *
  constructor
  · intro h
    cases h with
    | @round _ _ k h1 h2 h3 =>
      obtain ⟨q, rfl⟩ := h1
      cases s with
      | false =>
        rw [units_pos, units_pos] at h2 h3
        rw [uniq q t (by omega) (by omega)]
      | true =>
        rw [units_neg, units_neg] at h2 h3
        have := hz rfl
        rw [uniq q t (by omega) (by omega)]
  · rintro rfl
    cases s with
    | false => refine .round (Nat.dvd_mul_right _ _) ?_ ?_ <;> rw [units_pos, units_pos] <;> omega
    | true =>
      have := hz rfl
      refine .round (Nat.dvd_mul_right _ _) ?_ ?_ <;> rw [units_neg, units_neg] <;> omega

/-- **C34 is violated by `Math.round`** of every negative number halfway between integers: `Math.round(-1.5)`
is folded to -2 (in ECMA-262 it is -1). -/
theorem C34_round_violated (m : Nat) (h : 2 * (m % scale) = scale) :
    ¬ JsMath .round (.fin true m) (evalMath .round (.fin true m)) := by
  have hs := scale_pos
  have he : 2 * (scale / 2) = scale := by decide +kernel
  have d := Nat.div_add_mod (m + scale / 2) scale
  have hz : (m + scale / 2) % scale = 0 := by
    rw [← Nat.mod_add_mod, show m % scale + scale / 2 = scale by omega, Nat.mod_self]
  intro hj
  have e : evalMath .round (.fin true m) = .fin true ((m + scale / 2) / scale * scale) := rfl
  rw [e, Nat.mul_comm] at hj
  cases hj with
  | round h1 h2 h3 =>
    rw [units_neg, units_neg] at h2 h3
    omega

example : 2 * (3 * scale / 2 % scale) = scale := by decide +kernel

end Verif.Eval
