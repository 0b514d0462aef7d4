import Verif.Eval.NumLemmas
/-!
# C34: compile-time evaluation agrees with JavaScript

`evalBin L op a b = some (some c)`: the expression is folded to `c`; `some none`: it is left alone;
`none`: the evaluator panics. Each theorem compares the folded constant with the only one that ECMA-262
admits. Where the code deviates there is a `_violated` theorem beside the `_partial` one.
-/

namespace Verif.Eval

set_option exponentiation.threshold 4000

/-! ## Strings to numbers -/

/-- **C34, StringToNumber**: `+s` is folded to exactly the Number that ECMA-262 gives, for every string. -/
theorem C34_number (s : List Nat) (x : F64) : evalUn .plus (.str s) = some (.num x) ↔ StringToNumber s x := by
  rw [coerceStr_iff]
  simp [evalUn, coerceNum]

/-- `" 0x1F\n"` is 31, `"1_0"` is not a number. -/
example : StringToNumber [32, 48, 120, 49, 70, 10] (ofInt 31) :=
  (C34_number _ _).1 (by decide +kernel)

example : StringToNumber [49, 95, 48] .nan := (C34_number _ _).1 (by decide +kernel)

/-- `"-1.5e1"` is the double nearest to `-15 * 10 ^ 0`. -/
example : StringToNumber [45, 49, 46, 53, 101, 49] (ofDecimal true 15 0) := by
  have d : ∀ c, 48 ≤ c → c ≤ 57 → Digits 10 [c] (c - 48) := fun c h1 h2 => .one (.dec h1 h2 (by omega))
  have hu : Unsigned ([49] ++ 46 :: [53] ++ [101, 49]) 15 0 :=
    Unsigned.frac (d 49 (by decide) (by decide)) (d 53 (by decide) (by decide))
      (Exponent.some (s := []) (Or.inl rfl) .none (d 49 (by decide) (by decide)))
  exact Or.inl (StringNumeric.lit (a := []) (b := []) (by simp [Blank]) (NumericLiteral.decimal .minus hu)
    (by simp [Blank]))

/-- A library for the examples. -/
def sampleLib : Lib := ⟨fun _ => ([49], 22), fun x y => if x = one then one else y, fun _ _ => none⟩

/-! ## Unary operators -/

/-- **C34, unary operators**, except `!` on a BigInt: what is folded is what ECMA-262 gives, and only that. -/
theorem C34_unary_partial (op : UnOp) (a c c' : Const) (hn : ¬ (op = .not ∧ ∃ v, a = .bigint v))
    (h : evalUn op a = some c) : JsUn op a c' ↔ c' = c := by
  cases op with
  | bitNot =>
    simp only [evalUn, coerceU32_eq, Option.map_map, Option.map_eq_some_iff, Function.comp] at h
    obtain ⟨x, hx, rfl⟩ := h
    have hb := fun z => hasBits_iff (~~~ u32 x) (fun i => !bit (u32 x).toInt i) (fun i hi => by
      rw [bit_toInt, BitVec.getLsbD_not]; simp [hi]) (z := z)
    rw [i32Num_eq]
    constructor
    · intro h
      cases h with
      | bitNot h1 h2 h3 =>
        rw [toNumber_iff.1 h1, Option.some.injEq] at hx
        subst hx
        rw [toInt32_iff.1 h2] at h3
        rw [(hb _).1 h3]
    · rintro rfl
      exact .bitNot (toNumber_iff.2 hx) (toInt32_iff.2 rfl) ((hb _).2 rfl)
  | neg =>
    cases a with
    | num x =>
      simp only [evalUn, Option.some.injEq] at h
      subst h
      constructor
      · intro h
        cases h with
        | neg h => cases h; rfl
      · rintro rfl; exact .neg .num
    | bigint v => cases h
    | bool v => cases h
    | null => cases h
    | str v => cases h
    | undef => cases h
  | not =>
    have hf : Falsy a ↔ coerceBool a = false := by
      cases a with
      | bigint v => exact absurd ⟨rfl, v, rfl⟩ hn
      | bool b => cases b <;> simp [Falsy, coerceBool]
      | null => simp [Falsy, coerceBool]
      | num x =>
        cases x with
        | nan => simp [Falsy, coerceBool, F64.isNan]
        | inf s => cases s <;> simp [Falsy, coerceBool, F64.isNan, F64.eq, F64.cmp]
        | fin s m =>
          have := eq_zero_iff s m
          cases hh : (F64.fin s m).eq (.fin false 0) with
          | true =>
            rw [hh] at this
            have hm := this.1 rfl
            subst hm
            simp only [Falsy, coerceBool, F64.isNan, hh]
            cases s <;> simp
          | false =>
            rw [hh] at this
            have hm : m ≠ 0 := fun e => by have := this.2 e; cases this
            simp [Falsy, coerceBool, F64.isNan, hh, hm]
      | str s => simp [Falsy, coerceBool]
      | undef => simp [Falsy, coerceBool]
    simp only [evalUn, Option.some.injEq] at h
    subst h
    have e : (!coerceBool a) = truth (Falsy a) := eq_truth (by rw [hf]; simp)
    rw [e]
    constructor
    · intro h; cases h; rfl
    · rintro rfl; exact .not
  | plus =>
    simp only [evalUn, Option.map_eq_some_iff] at h
    obtain ⟨x, hx, rfl⟩ := h
    constructor
    · intro h
      cases h with
      | plus h =>
        rw [toNumber_iff.1 h, Option.some.injEq] at hx
        rw [hx]
    · rintro rfl; exact .plus (toNumber_iff.2 hx)
  | typeof =>
    simp only [evalUn, Option.some.injEq] at h
    subst h
    constructor
    · intro h; cases h <;> rfl
    · rintro rfl
      cases a <;> constructor
  | void =>
    simp only [evalUn, Option.some.injEq] at h
    subst h
    constructor
    · intro h; cases h; rfl
    · rintro rfl; exact .void

/-- `~3.7` is `-4`. -/
example : JsUn .bitNot (.num (.fin false (37 * scale / 10))) (.num (number (-4))) :=
  (C34_unary_partial .bitNot (.num (.fin false (37 * scale / 10))) (.num (number (-4))) _ (by simp)
    (by decide +kernel)).2 rfl

/-- **C34 is violated by `!` on BigInts**: it is folded to the opposite of what ECMA-262 gives, for every
BigInt. (`coerce_to_bool` says that a BigInt is true if it is zero.) -/
theorem C34_not_violated (v : Int) :
    ∃ c, evalUn .not (.bigint v) = some c ∧ ¬ JsUn .not (.bigint v) c := by
  refine ⟨_, rfl, fun h => ?_⟩
  generalize hc : Const.bool (!coerceBool (.bigint v)) = c at h
  cases h with
  | not =>
    simp only [Const.bool.injEq] at hc
    have : truth (Falsy (.bigint v)) = decide (v = 0) := (eq_truth (by simp [Falsy])).symm
    rw [this] at hc
    simp only [coerceBool] at hc
    by_cases e : v = 0 <;> simp [e] at hc

/-! ## Bitwise operators and shifts -/

/-- The operators of 13.9 and 13.12. -/
def Bitwise (op : BinOp) : Prop :=
  op = .bitAnd ∨ op = .bitOr ∨ op = .bitXor ∨ op = .shl ∨ op = .shr ∨ op = .ushr

theorem bitArm_some {f : BitVec 32 → BitVec 32 → F64} {a b c : Const} :
    bitArm f a b = some (some c) ↔ ∃ x y, ToNumber a x ∧ ToNumber b y ∧ c = .num (f (u32 x) (u32 y)) := by
  unfold bitArm
  rw [coerceU32_eq, coerceU32_eq]
  constructor
  · intro h
    cases ha : coerceNum a with
    | none => rw [ha] at h; cases h
    | some x =>
      cases hb : coerceNum b with
      | none => rw [ha, hb] at h; cases h
      | some y =>
        rw [ha, hb] at h
        simp only [Option.map_some, Option.some.injEq] at h
        exact ⟨x, y, toNumber_iff.2 ha, toNumber_iff.2 hb, h.symm⟩
  · rintro ⟨x, y, h1, h2, rfl⟩
    rw [toNumber_iff.1 h1, toNumber_iff.1 h2]
    rfl

/-- **C34, bitwise operators and shifts**: whatever is folded is what ECMA-262 gives; and everything is
folded for which it gives a Number. -/
theorem C34_bitwise (L : Lib) (op : BinOp) (a b c : Const) (hop : Bitwise op) :
    evalBin L op a b = some (some c) ↔ JsBin L op a b c := by
  have and := fun (x y : F64) z => hasBits_iff (u32 x &&& u32 y)
    (fun i => bit (u32 x).toInt i && bit (u32 y).toInt i) (fun i _ => by
      rw [bit_toInt, bit_toInt, BitVec.getLsbD_and]) (z := z)
  have or := fun (x y : F64) z => hasBits_iff (u32 x ||| u32 y)
    (fun i => bit (u32 x).toInt i || bit (u32 y).toInt i) (fun i _ => by
      rw [bit_toInt, bit_toInt, BitVec.getLsbD_or]) (z := z)
  have xor := fun (x y : F64) z => hasBits_iff (u32 x ^^^ u32 y)
    (fun i => bit (u32 x).toInt i != bit (u32 y).toInt i) (fun i _ => by
      rw [bit_toInt, bit_toInt, BitVec.getLsbD_xor]) (z := z)
  rcases hop with rfl | rfl | rfl | rfl | rfl | rfl
  · show bitArm _ a b = _ ↔ _
    rw [bitArm_some]
    constructor
    · rintro ⟨x, y, h1, h2, rfl⟩
      rw [i32Num_eq]
      exact .num h1 h2 (.and (toInt32_iff.2 rfl) (toInt32_iff.2 rfl) ((and x y _).2 rfl))
    · intro h
      cases h with
      | num h1 h2 h3 =>
        cases h3 with
        | and h4 h5 h6 =>
          rw [toInt32_iff.1 h4, toInt32_iff.1 h5] at h6
          exact ⟨_, _, h1, h2, by rw [i32Num_eq, (and _ _ _).1 h6]⟩
  · show bitArm _ a b = _ ↔ _
    rw [bitArm_some]
    constructor
    · rintro ⟨x, y, h1, h2, rfl⟩
      rw [i32Num_eq]
      exact .num h1 h2 (.or (toInt32_iff.2 rfl) (toInt32_iff.2 rfl) ((or x y _).2 rfl))
    · intro h
      cases h with
      | num h1 h2 h3 =>
        cases h3 with
        | or h4 h5 h6 =>
          rw [toInt32_iff.1 h4, toInt32_iff.1 h5] at h6
          exact ⟨_, _, h1, h2, by rw [i32Num_eq, (or _ _ _).1 h6]⟩
  · show bitArm _ a b = _ ↔ _
    rw [bitArm_some]
    constructor
    · rintro ⟨x, y, h1, h2, rfl⟩
      rw [i32Num_eq]
      exact .num h1 h2 (.xor (toInt32_iff.2 rfl) (toInt32_iff.2 rfl) ((xor x y _).2 rfl))
    · intro h
      cases h with
      | num h1 h2 h3 =>
        cases h3 with
        | xor h4 h5 h6 =>
          rw [toInt32_iff.1 h4, toInt32_iff.1 h5] at h6
          exact ⟨_, _, h1, h2, by rw [i32Num_eq, (xor _ _ _).1 h6]⟩
  · show bitArm _ a b = _ ↔ _
    rw [bitArm_some]
    constructor
    · rintro ⟨x, y, h1, h2, rfl⟩
      rw [i32Num_eq]
      obtain ⟨r1, r2, k, e⟩ := (shl_iff (u32 x) (shiftBy (u32 y))).2 rfl
      exact .num h1 h2 (.shl (toInt32_iff.2 rfl) (toUint32_iff.2 rfl) r1 r2 (by rw [← shiftBy_eq]; exact e))
    · intro h
      cases h with
      | num h1 h2 h3 =>
        cases h3 with
        | shl h4 h5 h6 h7 h8 =>
          rw [toInt32_iff.1 h4, toUint32_iff.1 h5, ← shiftBy_eq] at h8
          exact ⟨_, _, h1, h2, by rw [i32Num_eq, (shl_iff _ _).1 ⟨h6, h7, _, h8⟩]⟩
  · show bitArm _ a b = _ ↔ _
    rw [bitArm_some]
    constructor
    · rintro ⟨x, y, h1, h2, rfl⟩
      rw [i32Num_eq, shr_eq, shiftBy_eq]
      exact .num h1 h2 (.shr (toInt32_iff.2 rfl) (toUint32_iff.2 rfl))
    · intro h
      cases h with
      | num h1 h2 h3 =>
        cases h3 with
        | shr h4 h5 =>
          exact ⟨_, _, h1, h2, by rw [i32Num_eq, shr_eq, shiftBy_eq, toInt32_iff.1 h4, toUint32_iff.1 h5]⟩
  · show bitArm _ a b = _ ↔ _
    rw [bitArm_some]
    constructor
    · rintro ⟨x, y, h1, h2, rfl⟩
      rw [u32Num_eq, ushr_eq, shiftBy_eq]
      exact .num h1 h2 (.ushr (toUint32_iff.2 rfl) (toUint32_iff.2 rfl))
    · intro h
      cases h with
      | num h1 h2 h3 =>
        cases h3 with
        | ushr h4 h5 =>
          exact ⟨_, _, h1, h2, by rw [u32Num_eq, ushr_eq, shiftBy_eq, toUint32_iff.1 h4, toUint32_iff.1 h5]⟩

/-- `-1 >>> 28` is 15, `5 << "33"` is 10. -/
example : JsBin sampleLib .ushr (.num (number (-1))) (.num (number 28)) (.num (number 15)) :=
  (C34_bitwise sampleLib _ _ _ _ (by simp [Bitwise])).1 (by decide +kernel)

example : JsBin sampleLib .shl (.num (number 5)) (.str [51, 51]) (.num (number 10)) :=
  (C34_bitwise sampleLib _ _ _ _ (by simp [Bitwise])).1 (by decide +kernel)

/-! ## Arithmetic -/

theorem mod_iff {x y z : F64} : Remainder x y z ↔ z = jsMod x y := by
  have hz : ∀ {y : F64}, y.eq (.fin false 0) = true ↔ ∃ s, y = .fin s 0 := by
    intro y
    cases y with
    | nan => simp [F64.eq, F64.cmp]
    | inf s => cases s <;> simp [F64.eq, F64.cmp]
    | fin s m => rw [eq_zero_iff]; simp
  constructor
  · intro h
    cases h with
    | nan h =>
      unfold jsMod
      split
      · rfl
      · rename_i h0
        rcases h with rfl | rfl | ⟨s, rfl⟩ | h
        · rfl
        · cases x <;> rfl
        · rfl
        · exact absurd (hz.2 h) h0
    | same => simp [jsMod, F64.eq, F64.cmp, F64.rem]; split <;> simp_all
    | @fin s t m n q r hn e hr =>
      unfold jsMod
      rw [if_neg (by rw [hz]; simp [hn])]
      simp only [F64.rem]
      rw [if_neg hn, e, Nat.mul_comm q, Nat.mul_add_mod, Nat.mod_eq_of_lt hr]
  · rintro rfl
    unfold jsMod
    split
    · rename_i h0
      exact .nan (Or.inr (Or.inr (Or.inr (hz.1 h0))))
    · rename_i h0
      cases x with
      | nan => exact .nan (Or.inl rfl)
      | inf s => exact .nan (Or.inr (Or.inr (Or.inl ⟨s, rfl⟩)))
      | fin s m =>
        cases y with
        | nan => exact .nan (Or.inr (Or.inl rfl))
        | inf t => exact .same
        | fin t n =>
          have hn : n ≠ 0 := fun e => h0 (by rw [hz]; exact ⟨t, by rw [e]⟩)
          simp only [F64.rem]
          rw [if_neg hn]
          refine .fin (q := m / n) hn ?_ (Nat.mod_lt _ (Nat.pos_of_ne_zero hn))
          rw [Nat.mul_comm]; exact (Nat.div_add_mod m n).symm

/-- Operands of arithmetic that the evaluator folds. -/
def NumberOrString (a : Const) : Prop := (∃ x, a = .num x) ∨ ∃ s, a = .str s

theorem arith_some {f : F64 → F64 → F64} {a b c : Const} :
    arith f a b = some (some c) ↔ ∃ x y, NumberOrString a ∧ NumberOrString b ∧
      ToNumber a x ∧ ToNumber b y ∧ c = .num (f x y) := by
  constructor
  · intro h
    unfold arith at h
    cases a <;> cases b <;> simp [numOrStr] at h <;> subst h <;>
      refine ⟨_, _, ?_, ?_, toNumber_iff.2 rfl, toNumber_iff.2 rfl, rfl⟩ <;> simp [NumberOrString]
  · rintro ⟨x, y, ha, hb, h1, h2, rfl⟩
    have h1 := toNumber_iff.1 h1
    have h2 := toNumber_iff.1 h2
    rcases ha with ⟨u, rfl⟩ | ⟨u, rfl⟩ <;> rcases hb with ⟨v, rfl⟩ | ⟨v, rfl⟩ <;>
      (simp only [coerceNum, Option.some.injEq] at h1 h2; subst h1; subst h2; rfl)

/-- **C34, arithmetic**: `-`, `*`, `/` and `%` on numbers and strings are folded to what ECMA-262 gives. -/
theorem C34_arith (L : Lib) (op : BinOp) (a b c : Const) (hop : op = .sub ∨ op = .mul ∨ op = .div ∨ op = .mod)
    (ha : NumberOrString a) (hb : NumberOrString b) :
    evalBin L op a b = some (some c) ↔ JsBin L op a b c := by
  rcases hop with rfl | rfl | rfl | rfl
  · show arith _ a b = _ ↔ _
    rw [arith_some]
    constructor
    · rintro ⟨x, y, -, -, h1, h2, rfl⟩
      exact .num h1 h2 .sub
    · intro h
      cases h with
      | num h1 h2 h3 => cases h3; exact ⟨_, _, ha, hb, h1, h2, rfl⟩
  · show arith _ a b = _ ↔ _
    rw [arith_some]
    constructor
    · rintro ⟨x, y, -, -, h1, h2, rfl⟩
      exact .num h1 h2 .mul
    · intro h
      cases h with
      | num h1 h2 h3 => cases h3; exact ⟨_, _, ha, hb, h1, h2, rfl⟩
  · show arith _ a b = _ ↔ _
    rw [arith_some]
    constructor
    · rintro ⟨x, y, -, -, h1, h2, rfl⟩
      exact .num h1 h2 .div
    · intro h
      cases h with
      | num h1 h2 h3 => cases h3; exact ⟨_, _, ha, hb, h1, h2, rfl⟩
  · show arith _ a b = _ ↔ _
    rw [arith_some]
    constructor
    · rintro ⟨x, y, -, -, h1, h2, rfl⟩
      exact .num h1 h2 (.mod (mod_iff.2 rfl))
    · intro h
      cases h with
      | num h1 h2 h3 =>
        cases h3 with
        | mod h4 => exact ⟨_, _, ha, hb, h1, h2, by rw [mod_iff.1 h4]⟩

/-- `"7" - 2` is 5, `-7 % 2` is -1. -/
example : JsBin sampleLib .sub (.str [55]) (.num (number 2)) (.num (number 5)) :=
  (C34_arith sampleLib _ _ _ _ (by simp) (Or.inr ⟨_, rfl⟩) (Or.inl ⟨_, rfl⟩)).1 (by decide +kernel)

example : JsBin sampleLib .mod (.num (number (-7))) (.num (number 2)) (.num (number (-1))) :=
  (C34_arith sampleLib _ _ _ _ (by simp) (Or.inl ⟨_, rfl⟩) (Or.inl ⟨_, rfl⟩)).1 (by decide +kernel)

/-- **C34 is violated by `**`**: with the `pow` of IEEE 754, where one to any power is one, `1 ** NaN` is
folded to one; in ECMA-262 it is NaN. -/
theorem C34_exp_violated (L : Lib) (hpow : ∀ y, L.pow one y = one) :
    ∃ x y, ExpNan x y ∧ evalBin L .exp (.num x) (.num y) = some (some (.num one)) ∧ one ≠ .nan :=
  ⟨one, .nan, .nan, by simp [evalBin, arith, numOrStr, hpow], by simp [one]⟩

/-! ## Equality -/

theorem strict_iff (a b : Const) : jsStrictEq a b = true ↔ StrictEq a b := by
  constructor
  · intro h
    unfold jsStrictEq at h
    split at h
    · rename_i x y
      split at h
      · cases h
      · split at h
        · cases h
        · exact .num ((eq_iff x y).1 h)
    · rename_i hne
      have e := of_decide_eq_true h
      subst e
      cases a with
      | num x => exact (hne x x rfl rfl).elim
      | bigint v => exact .bigint
      | bool v => exact .bool
      | null => exact .null
      | str v => exact .str
      | undef => exact .undef
  · intro h
    cases h with
    | num h =>
      have h' := (eq_iff _ _).2 h
      obtain ⟨h1, h2, -⟩ := h
      unfold jsStrictEq
      simp only
      rw [if_neg, if_neg, h']
      · rename_i a b; cases b <;> first | exact absurd rfl h2 | simp [F64.isNan]
      · rename_i a b; cases a <;> first | exact absurd rfl h1 | simp [F64.isNan]
    | bigint => simp [jsStrictEq]
    | bool => simp [jsStrictEq]
    | str => simp [jsStrictEq]
    | null => simp [jsStrictEq]
    | undef => simp [jsStrictEq]

/-- **C34, `===` and `!==`**: folded for all operands, to what ECMA-262 gives. -/
theorem C34_strict (L : Lib) (op : BinOp) (a b c : Const) (hop : op = .strictEq ∨ op = .notStrictEq) :
    evalBin L op a b = some (some c) ↔ JsBin L op a b c := by
  have e := eq_truth (strict_iff a b)
  rcases hop with rfl | rfl
  · simp only [evalBin, Option.some.injEq, e]
    constructor
    · rintro rfl; exact .strictEq
    · intro h
      cases h with
      | num _ _ h => cases h
      | strictEq => rfl
  · simp only [evalBin, Option.some.injEq, e, not_truth]
    constructor
    · rintro rfl; exact .notStrictEq
    · intro h
      cases h with
      | num _ _ h => cases h
      | notStrictEq => rfl

/-- `-0 === 0`, and `NaN !== NaN`. -/
example : JsBin sampleLib .strictEq (.num (.fin true 0)) (.num (.fin false 0)) (.bool true) :=
  (C34_strict sampleLib _ _ _ _ (Or.inl rfl)).1 (by decide +kernel)

example : JsBin sampleLib .notStrictEq (.num .nan) (.num .nan) (.bool true) :=
  (C34_strict sampleLib _ _ _ _ (Or.inr rfl)).1 (by decide +kernel)

/-- A BigInt that is exactly a double. -/
def ExactBig (v : Int) : Prop := Representable (v.natAbs * scale)

/-- A string of which the evaluator makes the BigInt that ECMA-262 makes of it. -/
def PlainBig (s : List Nat) : Prop := ¬ Blank s ∧ ¬ SignedRadix s

/-- The operands for which `==` is folded rightly. -/
def LooseOk : Const → Const → Prop
  | .bigint v, .num _ => ExactBig v
  | .num _, .bigint v => ExactBig v
  | .bigint v, .bool _ => ExactBig v
  | .bool _, .bigint v => ExactBig v
  | .bigint _, .str s => PlainBig s
  | .str s, .bigint _ => PlainBig s
  | _, _ => True

theorem ofInt_exact {v : Int} (h : ExactBig v) : ofInt v = number v := by
  unfold ofInt number
  have := ofRatio_exact (neg := decide (v < 0)) h Nat.one_pos
  rwa [Nat.mul_one] at this

theorem hasValue_iff {v : Int} (h : ExactBig v) (x : F64) : HasValue x v ↔ x.isFinite = true ∧ (ofInt v).eq x = true := by
  rw [ofInt_exact h]
  unfold HasValue
  cases x with
  | nan => simp [F64.isFinite]
  | inf s => simp [F64.isFinite]
  | fin s m =>
    simp only [F64.isFinite, true_and, number, F64.eq, F64.cmp, beq_iff_eq, Option.some.injEq,
      Std.LawfulEqCmp.compare_eq_iff_eq, F64.fin.injEq]
    have hu : F64.units (decide (v < 0)) (v.natAbs * scale) = v * scale := by
      unfold F64.units
      rw [Int.natCast_mul]
      by_cases hv : v < 0
      · rw [if_pos (by simpa using hv), ← Int.neg_mul]
        congr 1; omega
      · rw [if_neg (by simpa using hv)]
        congr 1; omega
    rw [hu]
    constructor
    · rintro ⟨neg, m', ⟨rfl, rfl⟩, h⟩; exact h.symm
    · intro h; exact ⟨s, m, ⟨rfl, rfl⟩, h.symm⟩

theorem eq_comm' (a b : F64) : a.eq b = b.eq a := by
  rw [Bool.eq_iff_iff, eq_iff, eq_iff]
  unfold NumEqual
  constructor <;> (rintro ⟨h1, h2, h3⟩; refine ⟨h2, h1, ?_⟩; rcases h3 with h | h)
  · exact Or.inl h.symm
  · exact Or.inr ⟨h.2, h.1⟩
  · exact Or.inl h.symm
  · exact Or.inr ⟨h.2, h.1⟩

theorem big_iff {v : Int} {s : List Nat} (h : PlainBig s) : StringToBigInt s (some v) ↔ parseBigint s = some v := by
  constructor
  · intro h'; exact stringToBigInt_unique (parseBigint_spec h.1 h.2) h'
  · intro h'; rw [← h']; exact parseBigint_spec h.1 h.2

theorem strict_false {a b : Const} (h : discriminant a ≠ discriminant b) : ¬ StrictEq a b := by
  intro h'; cases h' <;> exact h rfl

theorem strict_discr {a b : Const} (h : StrictEq a b) : discriminant a = discriminant b := by
  cases h <;> rfl

/-- `==` on operands that are not booleans. -/
theorem looseBase_iff {a b : Const} (h : LooseOk a b) (ha : ∀ x, a ≠ .bool x) (hb : ∀ x, b ≠ .bool x) :
    looseEqBase a b = true ↔ LooseEq a b := by
  have notbool : ∀ {a b}, (∀ x, a ≠ Const.bool x) → (∀ x, b ≠ .bool x) → LooseEq a b →
      StrictEq a b ∨ (a = .null ∧ b = .undef) ∨ (a = .undef ∧ b = .null) ∨
      (∃ x s y, a = .num x ∧ b = .str s ∧ StringToNumber s y ∧ NumEqual x y) ∨
      (∃ x s y, a = .str s ∧ b = .num x ∧ StringToNumber s y ∧ NumEqual y x) ∨
      (∃ v s, a = .bigint v ∧ b = .str s ∧ StringToBigInt s (some v)) ∨
      (∃ v s, a = .str s ∧ b = .bigint v ∧ StringToBigInt s (some v)) ∨
      (∃ v x, a = .bigint v ∧ b = .num x ∧ HasValue x v) ∨ (∃ v x, a = .num x ∧ b = .bigint v ∧ HasValue x v) := by
    intro a b ha hb h
    cases h with
    | strict h => exact Or.inl h
    | nullUndef => simp
    | undefNull => simp
    | numStr h1 h2 => exact .inr (.inr (.inr (.inl ⟨_, _, _, rfl, rfl, h1, h2⟩)))
    | strNum h1 h2 => exact .inr (.inr (.inr (.inr (.inl ⟨_, _, _, rfl, rfl, h1, h2⟩))))
    | bigStr h1 => exact .inr (.inr (.inr (.inr (.inr (.inl ⟨_, _, rfl, rfl, h1⟩)))))
    | strBig h1 => exact .inr (.inr (.inr (.inr (.inr (.inr (.inl ⟨_, _, rfl, rfl, h1⟩))))))
    | boolL => exact absurd rfl (ha _)
    | boolR => exact absurd rfl (hb _)
    | bigNum h1 => exact .inr (.inr (.inr (.inr (.inr (.inr (.inr (.inl ⟨_, _, rfl, rfl, h1⟩)))))))
    | numBig h1 => exact .inr (.inr (.inr (.inr (.inr (.inr (.inr (.inr ⟨_, _, rfl, rfl, h1⟩)))))))
  constructor
  · intro he
    unfold looseEqBase at he
    split at he
    · exact .strict ((strict_iff a b).1 he)
    · split at he
      · exact .nullUndef
      · exact .undefNull
      · exact .numStr (coerceStr_spec _) ((eq_iff _ _).1 he)
      · exact .strNum (coerceStr_spec _) ((eq_iff _ _).1 he)
      · rename_i l r _
        simp only [Option.any_eq_true, beq_iff_eq] at he
        obtain ⟨v, hv, rfl⟩ := he
        exact .bigStr ((big_iff h).2 hv)
      · rename_i l r _
        simp only [Option.any_eq_true, beq_iff_eq] at he
        obtain ⟨v, hv, rfl⟩ := he
        exact .strBig ((big_iff h).2 hv)
      · rename_i l r _
        simp only [Bool.and_eq_true] at he
        exact .bigNum ((hasValue_iff h _).2 he)
      · rename_i l r _
        simp only [Bool.and_eq_true] at he
        rw [eq_comm'] at he
        exact .numBig ((hasValue_iff h _).2 he)
      · cases he
  · intro hl
    rcases notbool ha hb hl with h1 | ⟨rfl, rfl⟩ | ⟨rfl, rfl⟩ | ⟨x, s, y, rfl, rfl, h1, h2⟩ |
      ⟨x, s, y, rfl, rfl, h1, h2⟩ | ⟨v, s, rfl, rfl, h1⟩ | ⟨v, s, rfl, rfl, h1⟩ | ⟨v, x, rfl, rfl, h1⟩ |
      ⟨v, x, rfl, rfl, h1⟩
    · unfold looseEqBase
      rw [if_pos (strict_discr h1)]
      exact (strict_iff a b).2 h1
    · rfl
    · rfl
    · simp only [looseEqBase, discriminant]
      rw [coerceStr_iff.1 h1]
      exact (eq_iff _ _).2 h2
    · simp only [looseEqBase, discriminant]
      rw [coerceStr_iff.1 h1]
      exact (eq_iff _ _).2 h2
    · simp only [looseEqBase, discriminant]
      rw [(big_iff h).1 h1]
      simp
    · simp only [looseEqBase, discriminant]
      rw [(big_iff h).1 h1]
      simp
    · simp only [looseEqBase, discriminant]
      have := (hasValue_iff h _).1 h1
      simp [this]
    · simp only [looseEqBase, discriminant]
      have := (hasValue_iff h _).1 h1
      rw [eq_comm'] at this
      simp [this]

theorem boolNum_iff {x : Bool} {y : F64} : ToNumber (.bool x) y ↔ Const.num y = boolNum x := by
  rw [toNumber_iff]
  cases x <;> simp [coerceNum, boolNum] <;> exact eq_comm

theorem loose_iff {a b : Const} (h : LooseOk a b) : jsLooseEq a b = true ↔ LooseEq a b := by
  by_cases ha : ∃ x, a = .bool x
  · obtain ⟨x, rfl⟩ := ha
    by_cases hb : ∃ y, b = .bool y
    · obtain ⟨y, rfl⟩ := hb
      have e : jsLooseEq (.bool x) (.bool y) = jsStrictEq (.bool x) (.bool y) := rfl
      rw [e, strict_iff]
      constructor
      · exact .strict
      · intro h
        cases h with
        | strict h => exact h
        | boolL _ h => exact absurd rfl (h _)
        | boolR _ h => exact absurd rfl (h _)
    · have hb' : ∀ y, b ≠ .bool y := fun y e => hb ⟨y, e⟩
      have e : jsLooseEq (.bool x) b = looseEqBase (boolNum x) b := by
        cases b <;> first | rfl | exact absurd rfl (hb' _)
      have hok : LooseOk (boolNum x) b := by
        cases b <;> first | trivial | exact h
      rw [e, looseBase_iff hok (by simp [boolNum]) hb']
      constructor
      · intro h
        exact .boolL (boolNum_iff.2 rfl) hb' h
      · intro h
        cases h with
        | strict h => cases h; exact absurd rfl (hb' _)
        | boolL h1 h2 h3 => rw [boolNum_iff.1 h1] at h3; exact h3
        | boolR h1 h2 h3 => exact absurd rfl (hb' _)
  · have ha' : ∀ y, a ≠ .bool y := fun y e => ha ⟨y, e⟩
    by_cases hb : ∃ y, b = .bool y
    · obtain ⟨y, rfl⟩ := hb
      have e : jsLooseEq a (.bool y) = looseEqBase a (boolNum y) := by
        cases a <;> first | rfl | exact absurd rfl (ha' _)
      have hok : LooseOk a (boolNum y) := by
        cases a <;> first | trivial | exact h
      rw [e, looseBase_iff hok ha' (by simp [boolNum])]
      constructor
      · intro h
        exact .boolR (boolNum_iff.2 rfl) ha' h
      · intro h
        cases h with
        | strict h => cases h; exact absurd rfl (ha' _)
        | boolR h1 h2 h3 => rw [boolNum_iff.1 h1] at h3; exact h3
        | boolL h1 h2 h3 => exact absurd rfl (ha' _)
    · have hb' : ∀ y, b ≠ .bool y := fun y e => hb ⟨y, e⟩
      have e : jsLooseEq a b = looseEqBase a b := by
        cases a <;> cases b <;> first | rfl | exact absurd rfl (ha' _) | exact absurd rfl (hb' _)
      rw [e]
      exact looseBase_iff h ha' hb'

/-- **C34, `==` and `!=`**: folded for all operands, to what ECMA-262 gives if they meet `LooseOk`: a
BigInt compared with a Number or Boolean is exactly a double, and a string compared with a BigInt is not
blank and is not a non-decimal literal after a sign. -/
theorem C34_loose_partial (L : Lib) (op : BinOp) (a b c : Const) (hop : op = .looseEq ∨ op = .notLooseEq)
    (h : LooseOk a b) : evalBin L op a b = some (some c) ↔ JsBin L op a b c := by
  have e := eq_truth (loose_iff h)
  rcases hop with rfl | rfl
  · simp only [evalBin, Option.some.injEq, e]
    constructor
    · rintro rfl; exact .looseEq
    · intro h
      cases h with
      | num _ _ h => cases h
      | looseEq => rfl
  · simp only [evalBin, Option.some.injEq, e, not_truth]
    constructor
    · rintro rfl; exact .notLooseEq
    · intro h
      cases h with
      | num _ _ h => cases h
      | notLooseEq => rfl

/-- `"0x10" == 16n`, and `true == "1"`. -/
example : JsBin sampleLib .looseEq (.bool true) (.str [49]) (.bool true) :=
  (C34_loose_partial sampleLib _ _ _ _ (Or.inl rfl) (by exact True.intro)).1 (by decide +kernel)

theorem nonDecimal_head {s : List Nat} {n : Nat} (h : NonDecimal s n) : s.head? = some 48 := by
  cases h <;> rfl

example : JsBin sampleLib .looseEq (.str [48, 120, 49, 48]) (.bigint 16) (.bool true) := by
  refine (C34_loose_partial sampleLib _ _ _ _ (Or.inl rfl) ?_).1 (by decide +kernel)
  refine ⟨fun h => absurd (h 48 (by simp)) (by simp [SpaceChar]), ?_⟩
  rintro ⟨a, sg, l, b, n, ha, hb, hsg, -, e⟩
  cases a with
  | nil =>
    simp only [List.nil_append, List.cons_append, List.cons.injEq] at e
    omega
  | cons x xs =>
    simp only [List.cons_append, List.cons.injEq] at e
    have := ha x (by simp)
    rw [← e.1] at this
    simp [SpaceChar] at this

/-- **C34 is violated by `==` between a BigInt and a Number**: `9007199254740993n == 9007199254740992` is
folded to true. -/
theorem C34_loose_violated_rounding (L : Lib) :
    evalBin L .looseEq (.bigint (2 ^ 53 + 1)) (.num (number (2 ^ 53))) = some (some (.bool true)) ∧
      ¬ LooseEq (.bigint (2 ^ 53 + 1)) (.num (number (2 ^ 53))) := by
  constructor
  · have : jsLooseEq (.bigint (2 ^ 53 + 1)) (.num (number (2 ^ 53))) = true := by decide +kernel
    simp only [evalBin, this]
  · intro h
    cases h with
    | strict h => cases h
    | bigNum h =>
      obtain ⟨neg, m, e, h⟩ := h
      have e' : number (2 ^ 53) = .fin false (2 ^ 53 * scale) := by decide +kernel
      rw [e', F64.fin.injEq] at e
      rw [← e.1, ← e.2] at h
      simp only [F64.units, Bool.false_eq_true, if_false] at h
      rw [Int.natCast_mul] at h
      have hs := scale_pos
      have := Int.eq_of_mul_eq_mul_right (by omega) h
      omega

/-- **C34 is violated by `==` between a BigInt and a string**: `"" == 0n` is folded to false. -/
theorem C34_loose_violated_blank (L : Lib) :
    evalBin L .looseEq (.str []) (.bigint 0) = some (some (.bool false)) ∧ LooseEq (.str []) (.bigint 0) := by
  refine ⟨?_, .strBig (Or.inl ⟨0, .empty (by simp [Blank]), rfl⟩)⟩
  have : jsLooseEq (.str []) (.bigint 0) = false := by decide +kernel
  simp only [evalBin, this]

/-- **C34 is violated by `==` between a BigInt and a string**: `"-0x10" == -16n` is folded to true. -/
theorem C34_loose_violated_sign (L : Lib) :
    evalBin L .looseEq (.str [45, 48, 120, 49, 48]) (.bigint (-16)) = some (some (.bool true)) ∧
      ¬ LooseEq (.str [45, 48, 120, 49, 48]) (.bigint (-16)) := by
  constructor
  · have : jsLooseEq (.str [45, 48, 120, 49, 48]) (.bigint (-16)) = true := by decide +kernel
    simp only [evalBin, this]
  · intro h
    cases h with
    | strict h => cases h
    | strBig h =>
      rcases h with ⟨v, hv, -⟩ | ⟨-, h⟩
      · have key : ∀ s v, StringInteger s v → s = [45, 48, 120, 49, 48] → False := by
          intro s v hv es
          cases hv with
          | empty h => rw [es] at h; exact absurd (h 48 (by simp)) (by simp [SpaceChar])
          | lit ha hl hb =>
            obtain ⟨l1, l2⟩ := integer_chars hl
            have ht := noSpace_trim ha hb l1 l2
            rw [es] at ht
            have h1 : trim [45, 48, 120, 49, 48] = [45, 48, 120, 49, 48] := by decide +kernel
            rw [h1] at ht
            cases hl with
            | nonDecimal h =>
              have := nonDecimal_head h
              rw [← ht] at this
              simp at this
            | @decimal sg ds neg n hs hd =>
              have : (120 : Nat) ∈ ds := by
                have : (120 : Nat) ∈ sg ++ ds := by rw [← ht]; simp
                rcases List.mem_append.1 this with h | h
                · cases hs <;> simp at h
                · exact h
              exact absurd ((dec_digits.1 hd).2.1 120 this) (by decide)
        exact key _ _ hv rfl
      · cases h

/-! ## Order -/

/-- Texts without a code point from U+E000 to U+FFFF in one and a code point above in the other; all are
Unicode scalar values. -/
def SameOrder (a b : List Nat) : Prop :=
  (∀ c ∈ a ++ b, c < 0xD800 ∨ (0xE000 ≤ c ∧ c < 0x110000)) ∧
  (∀ x ∈ a, ∀ y ∈ b, ¬ (0xE000 ≤ x ∧ x < 0x10000 ∧ 0x10000 ≤ y) ∧ ¬ (0xE000 ≤ y ∧ y < 0x10000 ∧ 0x10000 ≤ x))

/-- The operands for which `<`, `>`, `<=` and `>=` are folded rightly. -/
def CompareOk : Const → Const → Prop
  | .str a, .str b => SameOrder a b
  | .str s, .bigint _ => PlainBig s
  | .bigint _, .str s => PlainBig s
  | .bigint _, .bigint _ => True
  | .bigint _, _ => False
  | _, .bigint _ => False
  | _, _ => True

theorem compareOk_swap {a b : Const} (h : CompareOk a b) : CompareOk b a := by
  cases a <;> cases b <;> first | exact h | skip
  rename_i s t
  refine ⟨fun c hc => h.1 c (by simpa [or_comm] using hc), fun x hx y hy => ?_⟩
  exact (h.2 y hy x hx).symm

theorem str_less {a b : List Nat} (h : SameOrder a b) :
    cmpUtf8 a b = .lt ↔ UnitsLess (Escape.utf16s a) (Escape.utf16s b) := by
  have h1 := encoding_less utf8 (fun x y => x < 0x110000 ∧ y < 0x110000)
    (fun x y hxy hlt => utf8_before hxy.2 hlt) utf8_ne a b (fun x hx y hy => by
      have a1 := h.1 x (by simp [hx])
      have a2 := h.1 y (by simp [hy])
      omega)
  have h2 := encoding_less Escape.utf16 (fun x y => x < 0xD800 ∨ 0x10000 ≤ x ∨ y < 0x10000)
    (fun x y hxy hlt => utf16_before hxy hlt) utf16_ne a b (fun x hx y hy => by
      have a1 := h.1 x (by simp [hx])
      have a2 := h.1 y (by simp [hy])
      have a3 := h.2 x hx y hy
      omega)
  unfold cmpUtf8 Escape.utf16s
  rw [cmpList_lt, h1, h2]

/-- What `js_cmp` says is what IsLessThan says, in both directions. -/
theorem jsCmp_spec {a b : Const} (h : CompareOk a b) :
    ∃ o, jsCmp a b = some o ∧ jsCmp b a = some (o.map Ordering.swap) ∧
      (∀ r, LessThan a b r ↔ r = o.map (fun x => x == .lt)) := by
  have ordTruth : ∀ {o : Ordering} {p : Prop}, (o = .lt ↔ p) → truth p = (o == .lt) := fun {o p} hp =>
    (eq_truth (by rw [beq_iff_eq]; exact hp)).symm
  have nums : ∀ (x y : F64), coerceNum a = some x → coerceNum b = some y →
      ¬ ((∃ s, a = .str s) ∧ ∃ s, b = .str s) → jsCmp a b = some (x.cmp y) → jsCmp b a = some (y.cmp x) →
      ∃ o, jsCmp a b = some o ∧ jsCmp b a = some (o.map Ordering.swap) ∧
      (∀ r, LessThan a b r ↔ r = o.map (fun x => x == .lt)) := by
    intro x y hx hy hns h1 h2
    refine ⟨x.cmp y, h1, by rw [h2, cmp_swap], fun r => ?_⟩
    have tx := toNumber_iff.2 hx
    have ty := toNumber_iff.2 hy
    constructor
    · intro hl
      cases hl with
      | strs => exact absurd ⟨⟨_, rfl⟩, ⟨_, rfl⟩⟩ hns
      | bigStr => cases hx
      | bigStrBad => cases hx
      | strBig => cases hy
      | strBigBad => cases hy
      | bigs => cases hx
      | nums _ t1 t2 n1 n2 =>
        rw [toNumber_iff.1 t1, Option.some.injEq] at hx
        rw [toNumber_iff.1 t2, Option.some.injEq] at hy
        subst hx; subst hy
        cases hc : F64.cmp _ _ with
        | none => rcases cmp_none.1 hc with e | e
                  · exact absurd e n1
                  · exact absurd e n2
        | some o =>
          simp only [Option.map_some]
          rw [ordTruth]
          rw [← cmp_lt_iff, hc, Option.some.injEq]
      | nan _ t1 t2 n =>
        rw [toNumber_iff.1 t1, Option.some.injEq] at hx
        rw [toNumber_iff.1 t2, Option.some.injEq] at hy
        subst hx; subst hy
        rw [cmp_none.2 n]; rfl
      | bigNum => cases hx
      | numBig => cases hy
      | bigNan => cases hx
      | nanBig => cases hy
    · intro hr
      rw [hr]
      cases hc : F64.cmp x y with
      | none => exact .nan hns tx ty (cmp_none.1 hc)
      | some o =>
        have hn : ¬ (x = .nan ∨ y = .nan) := by rw [← cmp_none, hc]; simp
        simp only [Option.map_some]
        rw [← ordTruth (p := NumLess x y) (by rw [← cmp_lt_iff, hc, Option.some.injEq])]
        exact .nums hns tx ty (fun e => hn (Or.inl e)) (fun e => hn (Or.inr e))
  cases a with
  | str s =>
    cases b with
    | str t =>
      refine ⟨some (cmpUtf8 s t), rfl, ?_, fun r => ?_⟩
      · show some (some (cmpUtf8 t s)) = _
        simp only [cmpUtf8, Option.map_some]
        rw [cmpNat_swap]
      · simp only [Option.map_some]
        rw [← ordTruth (str_less h)]
        constructor
        · intro hl
          cases hl with
          | strs => rfl
          | nums hn => exact absurd ⟨⟨_, rfl⟩, ⟨_, rfl⟩⟩ hn
          | nan hn => exact absurd ⟨⟨_, rfl⟩, ⟨_, rfl⟩⟩ hn
        · rintro rfl; exact .strs
    | bigint v =>
      have hp : PlainBig s := h
      refine ⟨(parseBigint s).map (fun a => compare a v), rfl, ?_, fun r => ?_⟩
      · show some ((parseBigint s).map (fun b => compare v b)) = _
        rw [Option.map_map]
        congr 2
        funext x
        exact (Int.compare_swap x v).symm
      · constructor
        · intro hl
          cases hl with
          | strBig h1 =>
            rw [stringToBigInt_unique (parseBigint_spec hp.1 hp.2) h1]
            simp only [Option.map_some]
            rw [ordTruth]
            exact Int.compare_eq_lt
          | strBigBad h1 => rw [stringToBigInt_unique (parseBigint_spec hp.1 hp.2) h1]; rfl
          | nums _ _ h => cases h
          | nan _ _ h => cases h
          | numBig h => exact absurd rfl (h _)
          | nanBig h => exact absurd rfl (h _)
        · intro hr
          rw [hr]
          have := parseBigint_spec hp.1 hp.2
          cases hb : parseBigint s with
          | none => rw [hb] at this; exact .strBigBad this
          | some w =>
            rw [hb] at this
            simp only [Option.map_some]
            rw [← ordTruth (p := w < v) Int.compare_eq_lt]
            exact .strBig this
    | bool y => exact nums _ _ rfl rfl (by simp) rfl rfl
    | null => exact nums _ _ rfl rfl (by simp) rfl rfl
    | num y => exact nums _ _ rfl rfl (by simp) rfl rfl
    | undef => exact nums _ _ rfl rfl (by simp) rfl rfl
  | bigint v =>
    cases b with
    | str s =>
      have hp : PlainBig s := h
      refine ⟨(parseBigint s).map (fun b => compare v b), rfl, ?_, fun r => ?_⟩
      · show some ((parseBigint s).map (fun a => compare a v)) = _
        rw [Option.map_map]
        congr 2
        funext x
        exact (Int.compare_swap v x).symm
      · constructor
        · intro hl
          cases hl with
          | bigStr h1 =>
            rw [stringToBigInt_unique (parseBigint_spec hp.1 hp.2) h1]
            simp only [Option.map_some]
            rw [ordTruth]
            exact Int.compare_eq_lt
          | bigStrBad h1 => rw [stringToBigInt_unique (parseBigint_spec hp.1 hp.2) h1]; rfl
          | nums _ h _ => cases h
          | nan _ h _ => cases h
          | bigNum h => exact absurd rfl (h _)
          | bigNan h => exact absurd rfl (h _)
        · intro hr
          rw [hr]
          have := parseBigint_spec hp.1 hp.2
          cases hb : parseBigint s with
          | none => rw [hb] at this; exact .bigStrBad this
          | some w =>
            rw [hb] at this
            simp only [Option.map_some]
            rw [← ordTruth (p := v < w) Int.compare_eq_lt]
            exact .bigStr this
    | bigint w =>
      refine ⟨some (compare v w), rfl, ?_, fun r => ?_⟩
      · show some (some (compare w v)) = _
        rw [Option.map_some, Int.compare_swap]
      · simp only [Option.map_some]
        rw [← ordTruth (p := v < w) Int.compare_eq_lt]
        constructor
        · intro hl
          cases hl with
          | bigs => rfl
          | nums _ h _ => cases h
          | nan _ h _ => cases h
          | bigNum _ h => cases h
          | numBig _ h => cases h
          | bigNan _ h => cases h
          | nanBig _ h => cases h
        · rintro rfl; exact .bigs
    | bool y => exact h.elim
    | null => exact h.elim
    | num y => exact h.elim
    | undef => exact h.elim
  | bool x =>
    cases b with
    | bigint v => exact h.elim
    | str y => exact nums _ _ rfl rfl (by simp) rfl rfl
    | bool y => exact nums _ _ rfl rfl (by simp) rfl rfl
    | null => exact nums _ _ rfl rfl (by simp) rfl rfl
    | num y => exact nums _ _ rfl rfl (by simp) rfl rfl
    | undef => exact nums _ _ rfl rfl (by simp) rfl rfl
  | null =>
    cases b with
    | bigint v => exact h.elim
    | str y => exact nums _ _ rfl rfl (by simp) rfl rfl
    | bool y => exact nums _ _ rfl rfl (by simp) rfl rfl
    | null => exact nums _ _ rfl rfl (by simp) rfl rfl
    | num y => exact nums _ _ rfl rfl (by simp) rfl rfl
    | undef => exact nums _ _ rfl rfl (by simp) rfl rfl
  | num x =>
    cases b with
    | bigint v => exact h.elim
    | str y => exact nums _ _ rfl rfl (by simp) rfl rfl
    | bool y => exact nums _ _ rfl rfl (by simp) rfl rfl
    | null => exact nums _ _ rfl rfl (by simp) rfl rfl
    | num y => exact nums _ _ rfl rfl (by simp) rfl rfl
    | undef => exact nums _ _ rfl rfl (by simp) rfl rfl
  | undef =>
    cases b with
    | bigint v => exact h.elim
    | str y => exact nums _ _ rfl rfl (by simp) rfl rfl
    | bool y => exact nums _ _ rfl rfl (by simp) rfl rfl
    | null => exact nums _ _ rfl rfl (by simp) rfl rfl
    | num y => exact nums _ _ rfl rfl (by simp) rfl rfl
    | undef => exact nums _ _ rfl rfl (by simp) rfl rfl

/-- **C34, `<`, `>`, `<=`, `>=`**: folded to what ECMA-262 gives if the operands meet `CompareOk`: no BigInt
beside a Number, Boolean, null or undefined; strings on which UTF-8 and UTF-16 order agree; a string
compared with a BigInt is not blank and is not a non-decimal literal after a sign. -/
theorem C34_compare_partial (L : Lib) (op : BinOp) (a b c : Const)
    (hop : op = .lt ∨ op = .gt ∨ op = .leq ∨ op = .geq) (h : CompareOk a b) :
    evalBin L op a b = some (some c) ↔ JsBin L op a b c := by
  obtain ⟨o, h1, h2, h3⟩ := jsCmp_spec h
  obtain ⟨o', g1, g2, g3⟩ := jsCmp_spec (compareOk_swap h)
  rw [h2, Option.some.injEq] at g1
  subst g1
  have key : ∀ (p : Ordering → Bool) (v : Bool), o.any p = v →
      (cmpArm p a b = some (some c) ↔ c = .bool v) := by
    intro p v hv
    unfold cmpArm
    rw [h1]
    simp only [hv, Option.some.injEq]
    exact eq_comm
  rcases hop with rfl | rfl | rfl | rfl
  · show cmpArm _ a b = _ ↔ _
    rw [key _ (o.map (fun x => x == .lt) == some true) (by cases o with | none => rfl | some o => cases o <;> rfl)]
    constructor
    · rintro rfl; exact .lt ((h3 _).2 rfl)
    · intro h
      cases h with
      | num _ _ h => cases h
      | lt h => rw [(h3 _).1 h]
  · show cmpArm _ a b = _ ↔ _
    rw [key _ ((o.map Ordering.swap).map (fun x => x == .lt) == some true)
      (by cases o with | none => rfl | some o => cases o <;> rfl)]
    constructor
    · rintro rfl; exact .gt ((g3 _).2 rfl)
    · intro h
      cases h with
      | num _ _ h => cases h
      | gt h => rw [(g3 _).1 h]
  · show cmpArm _ a b = _ ↔ _
    rw [key _ ((o.map Ordering.swap).map (fun x => x == .lt) == some false)
      (by cases o with | none => rfl | some o => cases o <;> rfl)]
    constructor
    · rintro rfl; exact .leq ((g3 _).2 rfl)
    · intro h
      cases h with
      | num _ _ h => cases h
      | leq h => rw [(g3 _).1 h]
  · show cmpArm _ a b = _ ↔ _
    rw [key _ (o.map (fun x => x == .lt) == some false) (by cases o with | none => rfl | some o => cases o <;> rfl)]
    constructor
    · rintro rfl; exact .geq ((h3 _).2 rfl)
    · intro h
      cases h with
      | num _ _ h => cases h
      | geq h => rw [(h3 _).1 h]

/-- `"10" < "9"`, but not `"10" < 9`; `undefined <= undefined` is false. -/
example : JsBin sampleLib .lt (.str [49, 48]) (.str [57]) (.bool true) :=
  (C34_compare_partial sampleLib _ _ _ _ (Or.inl rfl) (by
    constructor
    · simp
    · simp)).1 (by decide +kernel)

example : JsBin sampleLib .leq .undef .undef (.bool false) :=
  (C34_compare_partial sampleLib _ _ _ _ (by simp) (by exact True.intro)).1 (by decide +kernel)

/-- **C34 is violated by order comparisons of a BigInt and a Number, Boolean, null or undefined**: the
evaluator panics, although ECMA-262 gives every such comparison a value. -/
theorem C34_compare_violated_panic (L : Lib) (op : BinOp) (v : Int) (b : Const)
    (hop : op = .lt ∨ op = .gt ∨ op = .leq ∨ op = .geq) (hb : ∀ s, b ≠ .str s) (hb' : ∀ w, b ≠ .bigint w) :
    evalBin L op (.bigint v) b = none ∧ evalBin L op b (.bigint v) = none ∧
      (∃ r, LessThan (.bigint v) b r) ∧ ∃ r, LessThan b (.bigint v) r := by
  have hc : jsCmp (.bigint v) b = none ∧ jsCmp b (.bigint v) = none := by
    cases b with
    | str s => exact absurd rfl (hb s)
    | bigint w => exact absurd rfl (hb' w)
    | bool x => exact ⟨rfl, rfl⟩
    | null => exact ⟨rfl, rfl⟩
    | num x => exact ⟨rfl, rfl⟩
    | undef => exact ⟨rfl, rfl⟩
  have hn : ∃ x, ToNumber b x := by
    cases b with
    | bigint w => exact absurd rfl (hb' w)
    | str s => exact absurd rfl (hb s)
    | bool x => exact ⟨_, toNumber_iff.2 rfl⟩
    | null => exact ⟨_, toNumber_iff.2 rfl⟩
    | num x => exact ⟨_, toNumber_iff.2 rfl⟩
    | undef => exact ⟨_, toNumber_iff.2 rfl⟩
  obtain ⟨x, hx⟩ := hn
  refine ⟨?_, ?_, ?_, ?_⟩
  · rcases hop with rfl | rfl | rfl | rfl <;> simp [evalBin, cmpArm, hc.1]
  · rcases hop with rfl | rfl | rfl | rfl <;> simp [evalBin, cmpArm, hc.2]
  · by_cases e : x = .nan
    · subst e; exact ⟨_, .bigNan hb hx⟩
    · exact ⟨_, .bigNum hb hx e⟩
  · by_cases e : x = .nan
    · subst e; exact ⟨_, .nanBig hb hx⟩
    · exact ⟨_, .numBig hb hx e⟩

/-- **C34 is violated by the order of strings**: `"\u{FFFF}" < "\u{10000}"` is folded to true. -/
theorem C34_compare_violated_utf16 (L : Lib) :
    evalBin L .lt (.str [0xFFFF]) (.str [0x10000]) = some (some (.bool true)) ∧
      ¬ JsBin L .lt (.str [0xFFFF]) (.str [0x10000]) (.bool true) := by
  constructor
  · have : jsCmp (.str [0xFFFF]) (.str [0x10000]) = some (some .lt) := by decide +kernel
    simp [evalBin, cmpArm, this]
  · intro h
    have hl : ∀ r, LessThan (.str [0xFFFF]) (.str [0x10000]) r → r = some false := by
      intro r hr
      cases hr with
      | strs =>
        congr 1
        refine (eq_truth ?_).symm
        simp only [Bool.false_eq_true, false_iff]
        intro h
        have e1 : Escape.utf16s [0xFFFF] = [0xFFFF] := by decide
        have e2 : Escape.utf16s [0x10000] = [0xD800, 0xDC00] := by decide
        rw [e1, e2] at h
        generalize hx : [0xFFFF] = x at h
        generalize hy : [0xD800, 0xDC00] = y at h
        cases h with
        | nil => cases hx
        | head h => simp only [List.cons.injEq] at hx hy; omega
        | tail h => simp only [List.cons.injEq] at hx hy; omega
      | nums hn => exact absurd ⟨⟨_, rfl⟩, ⟨_, rfl⟩⟩ hn
      | nan hn => exact absurd ⟨⟨_, rfl⟩, ⟨_, rfl⟩⟩ hn
    generalize hc : Const.bool true = c at h
    cases h with
    | num _ _ h => cases h
    | lt h => rw [hl _ h] at hc; cases hc

end Verif.Eval
