import Verif.Eval.StrLemmas
/-! Lemmas about numbers, bits and comparisons. -/

namespace Verif.Eval

set_option exponentiation.threshold 4000

theorem truth_iff {p : Prop} : truth p = true ↔ p := by simp [truth]

theorem eq_truth {b : Bool} {p : Prop} (h : b = true ↔ p) : b = truth p := by
  rw [Bool.eq_iff_iff, h, truth_iff]

theorem not_truth (p : Prop) : (!truth p) = truth (¬ p) := eq_truth (by simp [truth])

/-! ## ToNumber -/

theorem toNumber_iff {a : Const} {x : F64} : ToNumber a x ↔ coerceNum a = some x := by
  constructor
  · intro h
    cases h with
    | num => rfl
    | undef => rfl
    | null => rfl
    | false_ => rfl
    | true_ => rfl
    | str h => simp only [coerceNum]; rw [coerceStr_iff.1 h]
  · intro h
    cases a with
    | bigint v => cases h
    | bool b =>
      cases b
      · simp only [coerceNum, Bool.false_eq_true, if_false, Option.some.injEq] at h; subst h; exact .false_
      · simp only [coerceNum, if_true, Option.some.injEq] at h; subst h; exact .true_
    | null => simp only [coerceNum, Option.some.injEq] at h; subst h; exact .null
    | num y => simp only [coerceNum, Option.some.injEq] at h; subst h; exact .num
    | str s => simp only [coerceNum, Option.some.injEq] at h; exact .str (coerceStr_iff.2 h)
    | undef => simp only [coerceNum, Option.some.injEq] at h; subst h; exact .undef

/-! ## ToUint32 and ToInt32 -/

/-- `coerceU32` after the conversion to a number. -/
def u32 (n : F64) : BitVec 32 :=
  if n.isFinite = false ∨ n.eq (.fin false 0) then 0
  else asU32 (remEuclid n.trunc (.fin false (2 ^ 32 * scale)))

theorem coerceU32_eq (a : Const) : coerceU32 a = (coerceNum a).map u32 := by
  unfold coerceU32 u32
  cases coerceNum a with
  | none => rfl
  | some n => simp only [Option.map_some]; split <;> rfl

/-- The integer part. -/
def intPart (neg : Bool) (m : Nat) : Int := if neg then -((m / scale : Nat) : Int) else (m / scale : Nat)

theorem eq_zero_iff (neg : Bool) (m : Nat) : (F64.fin neg m).eq (.fin false 0) = true ↔ m = 0 := by
  unfold F64.eq F64.cmp
  simp only [beq_iff_eq, Option.some.injEq, Std.LawfulEqCmp.compare_eq_iff_eq]
  cases neg <;> simp [F64.units] 

theorem ofRatio_int {neg : Bool} {v : Nat} (h : v < 2 ^ 53) : ofRatio neg (v * scale) 1 = .fin neg (v * scale) := by
  have := ofRatio_exact (neg := neg) (representable_int h) Nat.one_pos
  rwa [Nat.mul_one] at this

theorem asU32_int {r : Nat} (h : r < 2 ^ 32) : asU32 (.fin false (r * scale)) = BitVec.ofNat 32 r := by
  unfold asU32
  simp only [Nat.mul_div_cancel _ scale_pos]
  rw [Nat.min_eq_left (by omega)]

theorem u32_fin (neg : Bool) (m : Nat) : ((u32 (.fin neg m)).toNat : Int) = intPart neg m % 2 ^ 32 := by
  unfold u32
  by_cases h0 : m = 0
  · subst h0
    rw [if_pos (Or.inr ((eq_zero_iff _ _).2 rfl))]
    cases neg <;> simp [intPart]
  · rw [if_neg (by
      rintro (h | h)
      · cases h
      · exact h0 ((eq_zero_iff _ _).1 h))]
    have hrem : (F64.fin neg m).trunc.rem (.fin false (2 ^ 32 * scale)) = .fin neg (m / scale % 2 ^ 32 * scale) := by
      simp only [F64.trunc, F64.rem]
      rw [if_neg (Nat.ne_of_gt (Nat.mul_pos (by decide) scale_pos)), Nat.mul_mod_mul_right]
    unfold remEuclid
    simp only [hrem]
    generalize ht : m / scale = t
    have hr : t % 2 ^ 32 < 2 ^ 32 := Nat.mod_lt _ (by decide)
    cases neg with
    | false =>
      rw [if_neg]
      · rw [asU32_int hr, BitVec.toNat_ofNat, Nat.mod_mod]
        simp [intPart, ht]
      · simp only [F64.cmp, F64.units, Option.some.injEq]
        rw [Int.compare_eq_lt]
        simp only [Bool.false_eq_true, if_false]
        omega
    | true =>
      by_cases hz : t % 2 ^ 32 = 0
      · rw [if_neg]
        · simp only [asU32, intPart, ht, if_true]
          show ((0#32).toNat : Int) = _
          simp only [BitVec.toNat_ofNat]
          omega
        · simp only [F64.cmp, F64.units, Option.some.injEq, hz, Nat.zero_mul]
          rw [Int.compare_eq_lt]
          simp
      · have hpos : 0 < t % 2 ^ 32 * scale := Nat.mul_pos (by omega) scale_pos
        rw [if_pos]
        · have hs : F64.units true (t % 2 ^ 32 * scale) + F64.units false (2 ^ 32 * scale) =
              (((2 ^ 32 - t % 2 ^ 32) * scale : Nat) : Int) := by
            simp only [F64.units, if_true, Bool.false_eq_true, if_false, Nat.sub_mul]
            have : t % 2 ^ 32 * scale ≤ 2 ^ 32 * scale := Nat.mul_le_mul_right _ (Nat.le_of_lt hr)
            omega
          have hp : 0 < (2 ^ 32 - t % 2 ^ 32) * scale := Nat.mul_pos (by omega) scale_pos
          simp only [F64.abs, F64.add, hs]
          rw [if_neg (by omega), Int.natAbs_natCast, decide_eq_false (by omega), ofRatio_int (by omega),
            asU32_int (by omega), BitVec.toNat_ofNat]
          simp only [intPart, ht, if_true]
          omega
        · simp only [F64.cmp, F64.units, Option.some.injEq]
          rw [Int.compare_eq_lt]
          simp only [if_true, Bool.false_eq_true, if_false]
          omega

theorem toUint32_iff {x : F64} {u : Int} : ToUint32 x u ↔ u = (u32 x).toNat := by
  have hinf : x.isFinite = false → u32 x = 0 := fun h => by unfold u32; rw [if_pos (Or.inl h)]
  constructor
  · intro h
    cases h with
    | zero h => rw [hinf h]; rfl
    | int h1 h2 h3 h4 =>
      cases x with
      | nan => cases h1
      | inf s => cases h1
      | fin neg m =>
        rw [u32_fin]
        have h5 : ∀ n, Truncated (.fin neg m) n → n = intPart neg m := by intro n h; cases h; rfl
        rw [← h5 _ h1]
        omega
  · rintro rfl
    cases x with
    | nan => rw [hinf rfl]; exact .zero rfl
    | inf s => rw [hinf rfl]; exact .zero rfl
    | fin neg m =>
      rw [u32_fin]
      refine .int (n := intPart neg m) (k := intPart neg m / 2 ^ 32) .fin (Int.emod_nonneg _ (by decide))
        (Int.emod_lt_of_pos _ (by decide)) ?_
      omega

theorem toInt_cond (b : BitVec 32) : b.toInt = if (b.toNat : Int) < 2 ^ 31 then (b.toNat : Int) else b.toNat - 2 ^ 32 := by
  rw [BitVec.toInt_eq_toNat_cond]
  split <;> split <;> omega

theorem toInt32_iff {x : F64} {v : Int} : ToInt32 x v ↔ v = (u32 x).toInt := by
  rw [toInt_cond]
  constructor
  · intro h
    cases h with
    | small h1 h2 => rw [toUint32_iff.1 h1] at h2 ⊢; rw [if_pos h2]
    | large h1 h2 => rw [toUint32_iff.1 h1] at h2 ⊢; rw [if_neg (by omega)]
  · intro hv
    rw [hv]
    split
    · exact .small (toUint32_iff.2 rfl) (by assumption)
    · exact .large (toUint32_iff.2 rfl) (by omega)

theorem toInt_range (b : BitVec 32) : -2 ^ 31 ≤ b.toInt ∧ b.toInt < 2 ^ 31 := by
  have := toInt_cond b
  have := b.isLt
  split at * <;> omega

theorem i32Num_eq (b : BitVec 32) : i32Num b = number b.toInt := by
  have h := toInt_range b
  unfold i32Num ofInt number
  exact ofRatio_int (by omega)

theorem u32Num_eq (b : BitVec 32) : u32Num b = number b.toNat := by
  have := b.isLt
  unfold u32Num ofInt number
  exact ofRatio_int (by omega)

theorem number_inj {v w : Int} (h : number v = number w) : v = w := by
  unfold number at h
  simp only [F64.fin.injEq, decide_eq_decide] at h
  have := Nat.eq_of_mul_eq_mul_right scale_pos h.2
  omega

/-! ## Bits -/

theorem toInt_mod (b : BitVec 32) : (b.toInt % 2 ^ 32).toNat = b.toNat := by
  have := toInt_cond b
  have := b.isLt
  split at * <;> omega

theorem bit_toInt (b : BitVec 32) (i : Nat) : bit b.toInt i = b.getLsbD i := by
  unfold bit
  rw [toInt_mod]
  rfl

theorem hasBits_iff (b : BitVec 32) (f : Nat → Bool) (h : ∀ i, i < 32 → b.getLsbD i = f i) {z : Int} :
    HasBits z f ↔ z = b.toInt := by
  constructor
  · rintro ⟨h1, h2, h3⟩
    have e : (z % 2 ^ 32).toNat = b.toNat := by
      refine Nat.eq_of_testBit_eq fun i => ?_
      by_cases hi : i < 32
      · exact (h3 i hi).trans (h i hi).symm
      · rw [Nat.testBit_lt_two_pow, Nat.testBit_lt_two_pow]
        · exact Nat.lt_of_lt_of_le b.isLt (Nat.pow_le_pow_right (by decide) (by omega))
        · refine Nat.lt_of_lt_of_le (m := 2 ^ 32) (by omega) (Nat.pow_le_pow_right (by decide) (by omega))
    have := toInt_cond b
    split at * <;> omega
  · rintro rfl
    exact ⟨(toInt_range b).1, (toInt_range b).2, fun i hi => by rw [bit_toInt]; exact h i hi⟩

theorem shiftBy_eq (y : BitVec 32) : shiftBy y = ((y.toNat : Int) % 32).toNat := by
  unfold shiftBy
  rw [BitVec.toNat_and, show (0x1f#32).toNat = 2 ^ 5 - 1 from rfl, Nat.and_two_pow_sub_one_eq_mod]
  omega

theorem shl_iff (x : BitVec 32) (s : Nat) {z : Int} :
    (-2 ^ 31 ≤ z ∧ z < 2 ^ 31 ∧ ∃ k : Int, z = x.toInt * 2 ^ s + k * 2 ^ 32) ↔ z = (x <<< s).toInt := by
  have h1 : ∃ j : Int, x.toInt = x.toNat + j * 2 ^ 32 := by
    rw [toInt_cond]
    split
    · exact ⟨0, by omega⟩
    · exact ⟨-1, by omega⟩
  have h2 : ∃ j : Int, (x <<< s).toInt = (x.toNat : Int) * 2 ^ s + j * 2 ^ 32 := by
    have e : (x <<< s).toNat = x.toNat * 2 ^ s % 2 ^ 32 := by
      rw [BitVec.toNat_shiftLeft, Nat.shiftLeft_eq]
    have e2 : ((x.toNat * 2 ^ s : Nat) : Int) = (x.toNat : Int) * 2 ^ s := by
      rw [Int.natCast_mul, Int.natCast_pow]; rfl
    rw [toInt_cond, e, ← e2]
    generalize x.toNat * 2 ^ s = n
    split
    · exact ⟨-(n / 2 ^ 32 : Nat), by omega⟩
    · exact ⟨-(n / 2 ^ 32 : Nat) - 1, by omega⟩
  obtain ⟨j1, e1⟩ := h1
  obtain ⟨j2, e2⟩ := h2
  have e3 : x.toInt * 2 ^ s = (x.toNat : Int) * 2 ^ s + (j1 * 2 ^ s) * 2 ^ 32 := by
    rw [e1, Int.add_mul, Int.mul_assoc, Int.mul_comm (2 ^ 32) (2 ^ s), Int.mul_assoc]
  have hr := toInt_range (x <<< s)
  generalize (x <<< s).toInt = w at *
  generalize (x.toNat : Int) * 2 ^ s = p at *
  generalize j1 * 2 ^ s = q at *
  rw [e3]
  constructor
  · rintro ⟨a, b, k, e⟩
    omega
  · rintro rfl
    exact ⟨hr.1, hr.2, j2 - q, by omega⟩

theorem shr_eq (x : BitVec 32) (s : Nat) : (x.sshiftRight s).toInt = x.toInt / 2 ^ s := by
  rw [BitVec.toInt_sshiftRight, Int.shiftRight_eq_div_pow]
  simp

theorem ushr_eq (x : BitVec 32) (s : Nat) : ((x >>> s).toNat : Int) = (x.toNat : Int) / 2 ^ s := by
  rw [BitVec.toNat_ushiftRight, Nat.shiftRight_eq_div_pow]
  simp

/-! ## Equality and order of numbers -/

theorem units_inj {a b : Bool} {m n : Nat} :
    F64.units a m = F64.units b n ↔ m = n ∧ (a = b ∨ m = 0) := by
  cases a <;> cases b <;> simp [F64.units] <;> omega

theorem eq_iff (a b : F64) : a.eq b = true ↔ NumEqual a b := by
  unfold F64.eq NumEqual
  rw [beq_iff_eq]
  cases a with
  | nan => simp [F64.cmp]
  | inf s =>
    cases b with
    | nan => simp [F64.cmp]
    | inf t => cases s <;> cases t <;> simp [F64.cmp] <;> decide
    | fin t n => cases s <;> simp [F64.cmp]
  | fin s m =>
    cases b with
    | nan => simp [F64.cmp]
    | inf t => cases t <;> simp [F64.cmp]
    | fin t n =>
      simp only [F64.cmp, Option.some.injEq, Std.LawfulEqCmp.compare_eq_iff_eq, units_inj]
      simp only [ne_eq, reduceCtorEq, not_false_eq_true, true_and, F64.fin.injEq]
      cases s <;> cases t <;> simp <;> omega

theorem cmp_lt_iff {a b : F64} : a.cmp b = some .lt ↔ NumLess a b := by
  constructor
  · intro h
    cases a with
    | nan => simp [F64.cmp] at h
    | inf s =>
      cases b with
      | nan => simp [F64.cmp] at h
      | inf t => cases s <;> cases t <;> first | exact .infs | (exact absurd h (by decide))
      | fin t n => cases s <;> first | exact .fromInf | (simp [F64.cmp] at h)
    | fin s m =>
      cases b with
      | nan => simp [F64.cmp] at h
      | inf t => cases t <;> first | exact .toInf | (simp [F64.cmp] at h)
      | fin t n =>
        simp only [F64.cmp, Option.some.injEq, Int.compare_eq_lt] at h
        exact .fin h
  · intro h
    cases h with
    | fin h => simp only [F64.cmp, Option.some.injEq, Int.compare_eq_lt]; exact h
    | toInf => rfl
    | fromInf => rfl
    | infs => rfl

theorem cmp_none {a b : F64} : a.cmp b = none ↔ a = .nan ∨ b = .nan := by
  cases a <;> cases b <;> simp [F64.cmp]

theorem cmp_swap (a b : F64) : b.cmp a = (a.cmp b).map Ordering.swap := by
  cases a <;> cases b <;> simp [F64.cmp]
  · rename_i s t
    cases s <;> cases t <;> rfl
  · rename_i s _ _
    cases s <;> rfl
  · rename_i s _ t
    cases t <;> rfl
  · rw [Int.compare_swap]

/-! ## The order of strings -/

theorem natCmp_lt {x y : Nat} : compare x y = .lt ↔ x < y := Nat.compare_eq_lt

theorem cmpList_lt (a b : List Nat) :
    Harness.cmpList (fun x y : Nat => compare x y) a b = .lt ↔ UnitsLess a b := by
  induction a generalizing b with
  | nil =>
    cases b with
    | nil => simp [Harness.cmpList]; intro h; cases h
    | cons y ys => simp [Harness.cmpList]; exact .nil
  | cons x xs ih =>
    cases b with
    | nil => simp [Harness.cmpList]; intro h; cases h
    | cons y ys =>
      simp only [Harness.cmpList]
      constructor
      · intro h
        rcases Nat.lt_trichotomy x y with h1 | h1 | h1
        · exact .head h1
        · subst h1
          simp only [Nat.compare_eq_eq.2 rfl, Ordering.then] at h
          exact .tail ((ih ys).1 h)
        · rw [Nat.compare_eq_gt.2 h1] at h; cases h
      · intro h
        cases h with
        | head h => rw [Nat.compare_eq_lt.2 h]; rfl
        | tail h => rw [Nat.compare_eq_eq.2 rfl]; exact (ih ys).2 h

/-- The first difference of two lists is that the first has a smaller element. -/
def Before (u v : List Nat) : Prop := ∃ p x y s t, u = p ++ x :: s ∧ v = p ++ y :: t ∧ x < y

theorem unitsLess_prefix (p u v : List Nat) : UnitsLess (p ++ u) (p ++ v) ↔ UnitsLess u v := by
  induction p with
  | nil => rfl
  | cons c cs ih =>
    rw [← ih]
    constructor
    · intro h
      cases h with
      | head h => exact absurd h (Nat.lt_irrefl _)
      | tail h => exact h
    · exact .tail

theorem before_less {u v : List Nat} (h : Before u v) (r s : List Nat) :
    UnitsLess (u ++ r) (v ++ s) ∧ ¬ UnitsLess (v ++ s) (u ++ r) := by
  obtain ⟨p, x, y, a, b, rfl, rfl, hxy⟩ := h
  simp only [List.append_assoc, unitsLess_prefix]
  refine ⟨.head hxy, fun h => ?_⟩
  cases h with
  | head h => omega
  | tail h => exact absurd hxy (Nat.lt_irrefl _)

/-- An encoding that respects the order of code points respects the order of texts. -/
theorem encoding_less (f : Nat → List Nat) (P : Nat → Nat → Prop) (hf : ∀ x y, P x y → x < y → Before (f x) (f y))
    (hne : ∀ x, f x ≠ []) (a b : List Nat) (h : ∀ x ∈ a, ∀ y ∈ b, P x y ∧ P y x) :
    UnitsLess (a.flatMap f) (b.flatMap f) ↔ UnitsLess a b := by
  induction a generalizing b with
  | nil =>
    cases b with
    | nil => rfl
    | cons y ys =>
      refine ⟨fun _ => .nil, fun _ => ?_⟩
      rw [List.flatMap_nil, List.flatMap_cons]
      cases hy : f y with
      | nil => exact absurd hy (hne y)
      | cons c cs => exact .nil
  | cons x xs ih =>
    cases b with
    | nil =>
      constructor
      · intro h
        rw [List.flatMap_nil] at h
        have : ∀ u : List Nat, ¬ UnitsLess u [] := by intro u h; cases h
        exact absurd h (this _)
      · intro h; cases h
    | cons y ys =>
      rw [List.flatMap_cons, List.flatMap_cons]
      rcases Nat.lt_trichotomy x y with h1 | h1 | h1
      · have := before_less (hf x y (h x (by simp) y (by simp)).1 h1) (xs.flatMap f) (ys.flatMap f)
        exact ⟨fun _ => .head h1, fun _ => this.1⟩
      · subst h1
        rw [unitsLess_prefix, ih ys fun p hp q hq => h p (List.mem_cons_of_mem _ hp) q (List.mem_cons_of_mem _ hq)]
        constructor
        · exact .tail
        · intro h
          cases h with
          | head h => exact absurd h (Nat.lt_irrefl _)
          | tail h => exact h
      · have := before_less (hf y x (h x (by simp) y (by simp)).2 h1) (ys.flatMap f) (xs.flatMap f)
        constructor
        · intro h; exact absurd h this.2
        · intro h
          cases h with
          | head h => omega
          | tail h => omega

theorem before_head {x y : Nat} {s t : List Nat} (h : x < y) : Before (x :: s) (y :: t) :=
  ⟨[], x, y, s, t, rfl, rfl, h⟩

theorem before_cons {c d : Nat} {s t : List Nat} (e : c = d) (h : Before s t) : Before (c :: s) (d :: t) := by
  subst e
  obtain ⟨p, x, y, a, b, rfl, rfl, hxy⟩ := h
  exact ⟨c :: p, x, y, a, b, rfl, rfl, hxy⟩

theorem utf8_before {x y : Nat} (hy : y < 0x110000) (h : x < y) : Before (utf8 x) (utf8 y) := by
  unfold utf8
  by_cases y1 : y < 0x80
  · rw [if_pos (by omega), if_pos y1]; exact before_head h
  rw [if_neg y1]
  by_cases x1 : x < 0x80
  · rw [if_pos x1]
    split
    · exact before_head (by omega)
    · split <;> exact before_head (by omega)
  rw [if_neg x1]
  by_cases y2 : y < 0x800
  · rw [if_pos (by omega), if_pos y2]
    by_cases e : x / 0x40 = y / 0x40
    · exact before_cons (by omega) (before_head (by omega))
    · exact before_head (by omega)
  rw [if_neg y2]
  by_cases x2 : x < 0x800
  · rw [if_pos x2]
    split <;> exact before_head (by omega)
  rw [if_neg x2]
  by_cases y3 : y < 0x10000
  · rw [if_pos (by omega), if_pos y3]
    by_cases e : x / 0x1000 = y / 0x1000
    · refine before_cons (by omega) ?_
      by_cases e2 : x / 0x40 = y / 0x40
      · exact before_cons (by omega) (before_head (by omega))
      · exact before_head (by omega)
    · exact before_head (by omega)
  rw [if_neg y3]
  by_cases x3 : x < 0x10000
  · rw [if_pos x3]; exact before_head (by omega)
  rw [if_neg x3]
  by_cases e : x / 0x40000 = y / 0x40000
  · refine before_cons (by omega) ?_
    by_cases e2 : x / 0x1000 = y / 0x1000
    · refine before_cons (by omega) ?_
      by_cases e3 : x / 0x40 = y / 0x40
      · exact before_cons (by omega) (before_head (by omega))
      · exact before_head (by omega)
    · exact before_head (by omega)
  · exact before_head (by omega)

theorem utf8_ne (x : Nat) : utf8 x ≠ [] := by
  unfold utf8; split <;> try split <;> try split
  all_goals simp

theorem utf16_ne (x : Nat) : Escape.utf16 x ≠ [] := by
  unfold Escape.utf16; split <;> simp

/-- The UTF-16 order differs from that of code points only for a code point from U+E000 to U+FFFF and one
above. -/
theorem utf16_before {x y : Nat} (hx : x < 0xD800 ∨ 0x10000 ≤ x ∨ y < 0x10000) (h : x < y) :
    Before (Escape.utf16 x) (Escape.utf16 y) := by
  unfold Escape.utf16
  by_cases y1 : y < 0x10000
  · rw [if_pos (by omega), if_pos y1]; exact before_head h
  rw [if_neg y1]
  by_cases x1 : x < 0x10000
  · rw [if_pos x1]; exact before_head (by omega)
  rw [if_neg x1]
  by_cases e : (x - 0x10000) / 0x400 = (y - 0x10000) / 0x400
  · exact before_cons (by omega) (before_head (by omega))
  · exact before_head (by omega)

theorem unitsLess_asymm {a b : List Nat} (h : UnitsLess a b) : ¬ UnitsLess b a := by
  induction h with
  | nil => intro h; cases h
  | head h => intro h'; cases h' with
    | head h' => omega
    | tail _ => omega
  | tail h ih => intro h'; cases h' with
    | head h' => omega
    | tail h' => exact ih h'

theorem cmpNat_swap (a b : List Nat) : Harness.cmpList (fun x y : Nat => compare x y) b a =
    (Harness.cmpList (fun x y : Nat => compare x y) a b).swap := by
  induction a generalizing b with
  | nil => cases b <;> rfl
  | cons x xs ih =>
    cases b with
    | nil => rfl
    | cons y ys =>
      simp only [Harness.cmpList]
      rw [ih ys, ← Nat.compare_swap x y]
      cases compare x y <;> rfl

end Verif.Eval
