import Verif.Harness.Lemmas
/-!
# Double-precision numbers

A finite double is an integer multiple of `2 ^ -1074`; it is stored as its sign and that multiple.
Nothing here is code of the repository: it is what Rust's `f64` and ECMAScript's Number type have in
common (IEEE 754 binary64, rounding to nearest, ties to even, one NaN).
-/

namespace Verif.Eval

set_option exponentiation.threshold 4000

/-- How many units make one: the unit is `2 ^ -1074`. -/
def scale : Nat := 2 ^ 1074

/-- `2 ^ 1024` in units: magnitudes from here on are infinite. -/
def limit : Nat := 2 ^ 2098

inductive F64 where
  | nan
  | inf (neg : Bool)
  | fin (neg : Bool) (mag : Nat)
deriving DecidableEq

/-- How many low bits of a magnitude must be zero: magnitudes have 53 significant bits. -/
def gap (x : Nat) : Nat := Nat.log2 x - 52

/-- The magnitudes that doubles have. -/
def Representable (x : Nat) : Prop := 2 ^ gap x ∣ x ∧ x < limit

/-- The integer nearest to `p / d`, the even one of two. -/
def roundHalfEven (p d : Nat) : Nat :=
  let r := p / d
  let rem := p % d
  if 2 * rem < d then r
  else if d < 2 * rem then r + 1
  else if r % 2 = 0 then r else r + 1

/-- The magnitude nearest to `p / q` units. -/
def roundMag (p q : Nat) : Nat :=
  let k := gap (p / q)
  roundHalfEven p (q * 2 ^ k) * 2 ^ k

/-- The double nearest to plus or minus `p / q` units. -/
def ofRatio (neg : Bool) (p q : Nat) : F64 :=
  if roundMag p q < limit then .fin neg (roundMag p q) else .inf neg

/-- The double nearest to plus or minus `m * 10 ^ e`. -/
def ofDecimal (neg : Bool) (m : Nat) (e : Int) : F64 :=
  if 0 ≤ e then ofRatio neg (m * 10 ^ e.toNat * scale) 1
  else ofRatio neg (m * scale) (10 ^ (-e).toNat)

/-- The double nearest to an integer. -/
def ofInt (v : Int) : F64 := ofRatio (decide (v < 0)) (v.natAbs * scale) 1

namespace F64

/-- The value of a finite double, in units. -/
def units (neg : Bool) (mag : Nat) : Int := if neg then -(mag : Int) else mag

def isNan : F64 → Bool
  | .nan => true
  | _ => false

def isFinite : F64 → Bool
  | .fin _ _ => true
  | _ => false

/-- The comparison of doubles; `none` if one is NaN. -/
def cmp : F64 → F64 → Option Ordering
  | .nan, _ => none
  | _, .nan => none
  | .inf a, .inf b => some (compare (if a then 0 else 1) (if b then 0 else 1))
  | .inf a, .fin _ _ => some (if a then .lt else .gt)
  | .fin _ _, .inf b => some (if b then .gt else .lt)
  | .fin a m, .fin b n => some (compare (units a m) (units b n))

/-- `==` on doubles. -/
def eq (a b : F64) : Bool := a.cmp b == some .eq

def neg : F64 → F64
  | .nan => .nan
  | .inf a => .inf (!a)
  | .fin a m => .fin (!a) m

def abs : F64 → F64
  | .nan => .nan
  | .inf _ => .inf false
  | .fin _ m => .fin false m

def add : F64 → F64 → F64
  | .nan, _ => .nan
  | _, .nan => .nan
  | .inf a, .inf b => if a = b then .inf a else .nan
  | .inf a, .fin _ _ => .inf a
  | .fin _ _, .inf b => .inf b
  | .fin a m, .fin b n =>
    let s := units a m + units b n
    if s = 0 then .fin (a && b) 0 else ofRatio (decide (s < 0)) s.natAbs 1

def sub (a b : F64) : F64 := a.add b.neg

def mul : F64 → F64 → F64
  | .nan, _ => .nan
  | _, .nan => .nan
  | .inf a, .inf b => .inf (a != b)
  | .inf a, .fin b n => if n = 0 then .nan else .inf (a != b)
  | .fin a m, .inf b => if m = 0 then .nan else .inf (a != b)
  | .fin a m, .fin b n => ofRatio (a != b) (m * n) scale

def div : F64 → F64 → F64
  | .nan, _ => .nan
  | _, .nan => .nan
  | .inf _, .inf _ => .nan
  | .inf a, .fin b _ => .inf (a != b)
  | .fin a _, .inf b => .fin (a != b) 0
  | .fin a m, .fin b n =>
    if n = 0 then (if m = 0 then .nan else .inf (a != b)) else ofRatio (a != b) (m * scale) n

/-- The remainder of truncating division, with the sign of the dividend; it is exact. -/
def rem : F64 → F64 → F64
  | .nan, _ => .nan
  | _, .nan => .nan
  | .inf _, _ => .nan
  | .fin a m, .inf _ => .fin a m
  | .fin a m, .fin _ n => if n = 0 then .nan else .fin a (m % n)

/-- Rounding towards zero. -/
def trunc : F64 → F64
  | .fin a m => .fin a (m / scale * scale)
  | x => x

/-- Rounding towards minus infinity. -/
def floor : F64 → F64
  | .fin a m =>
    if a ∧ m % scale ≠ 0 then .fin a ((m / scale + 1) * scale) else .fin a (m / scale * scale)
  | x => x

/-- Rounding towards plus infinity. -/
def ceil : F64 → F64
  | .fin a m =>
    if ¬ a ∧ m % scale ≠ 0 then .fin a ((m / scale + 1) * scale) else .fin a (m / scale * scale)
  | x => x

/-- Rounding to the nearest integer, halves away from zero (Rust's `f64::round`). -/
def roundAway : F64 → F64
  | .fin a m => .fin a ((m + scale / 2) / scale * scale)
  | x => x

end F64

/-! ## Rounding -/

theorem scale_pos : 0 < scale := Nat.two_pow_pos _

theorem limit_pos : 0 < limit := Nat.two_pow_pos _

theorem roundHalfEven_exact {y d : Nat} (hd : 0 < d) : roundHalfEven (y * d) d = y := by
  unfold roundHalfEven
  simp only [Nat.mul_mod_left, Nat.mul_zero, hd, if_true]
  exact Nat.mul_div_cancel _ hd

/-- A representable magnitude is not changed by rounding. -/
theorem roundMag_exact {x q : Nat} (hx : 2 ^ gap x ∣ x) (hq : 0 < q) : roundMag (x * q) q = x := by
  unfold roundMag
  simp only [Nat.mul_div_cancel _ hq]
  obtain ⟨y, hy⟩ := hx
  have : x * q = y * (q * 2 ^ gap x) := by
    rw [Nat.mul_comm y, Nat.mul_assoc, ← hy, Nat.mul_comm]
  rw [this, roundHalfEven_exact (Nat.mul_pos hq (Nat.two_pow_pos _)), Nat.mul_comm]
  exact hy.symm

theorem ofRatio_exact {neg : Bool} {x q : Nat} (hx : Representable x) (hq : 0 < q) :
    ofRatio neg (x * q) q = .fin neg x := by
  unfold ofRatio
  rw [roundMag_exact hx.1 hq, if_pos hx.2]

theorem gap_le {x k : Nat} (h : x < 2 ^ (k + 53)) : gap x ≤ k := by
  unfold gap
  by_cases hx : x = 0
  · subst hx; simp
  · have := (Nat.log2_lt hx).2 h
    omega

/-- A multiple of a power of two that is not too large is representable. -/
theorem representable_of {x k : Nat} (hd : 2 ^ k ∣ x) (hx : x < 2 ^ (k + 53)) (hk : k ≤ 2045) :
    Representable x := by
  refine ⟨Nat.dvd_trans (Nat.pow_dvd_pow 2 (gap_le hx)) hd, Nat.lt_of_lt_of_le hx ?_⟩
  exact Nat.pow_le_pow_right (by decide) (by omega)

/-- Integers below `2 ^ 53` are representable. -/
theorem representable_int {v : Nat} (h : v < 2 ^ 53) : Representable (v * scale) := by
  refine representable_of (k := 1074) (Nat.dvd_mul_left _ _) ?_ (by decide)
  rw [show 1074 + 53 = 53 + 1074 from rfl, Nat.pow_add, ← scale]
  exact Nat.mul_lt_mul_of_pos_right h scale_pos

/-- The error of `roundHalfEven` is at most one half. -/
theorem roundHalfEven_near (p d : Nat) (hd : 0 < d) :
    2 * (p - roundHalfEven p d * d) ≤ d ∧ 2 * (roundHalfEven p d * d - p) ≤ d ∧
      p / d ≤ roundHalfEven p d ∧ roundHalfEven p d ≤ p / d + 1 := by
  have h1 := Nat.div_add_mod p d
  have h2 := Nat.mod_lt p hd
  unfold roundHalfEven
  simp only
  have e1 : p / d * d = d * (p / d) := Nat.mul_comm ..
  have e2 : (p / d + 1) * d = d * (p / d) + d := by rw [Nat.add_mul, Nat.one_mul, e1]
  split
  · rw [e1]; omega
  · split
    · rw [e2]; omega
    · split
      · rw [e1]; omega
      · rw [e2]; omega

/-- The distance of two numbers. -/
def dist (a b : Nat) : Nat := (a - b) + (b - a)

/-- **Rounding is to nearest**: no representable magnitude is closer to `p / q`. -/
theorem roundMag_nearest (p q y : Nat) (hq : 0 < q) (hy : 2 ^ gap y ∣ y) :
    dist p (roundMag p q * q) ≤ dist p (y * q) := by
  unfold roundMag
  generalize hk : gap (p / q) = k
  simp only
  have hd : 0 < q * 2 ^ k := Nat.mul_pos hq (Nat.two_pow_pos _)
  obtain ⟨n1, n2, n3, n4⟩ := roundHalfEven_near p (q * 2 ^ k) hd
  generalize roundHalfEven p (q * 2 ^ k) = r at *
  have er : r * 2 ^ k * q = r * (q * 2 ^ k) := by rw [Nat.mul_assoc, Nat.mul_comm (2 ^ k)]
  rw [er]
  have hmod := Nat.div_add_mod p (q * 2 ^ k)
  have hlt := Nat.mod_lt p hd
  generalize hD : q * 2 ^ k = D at *
  by_cases hmul : 2 ^ k ∣ y
  · obtain ⟨z, hz⟩ := hmul
    have ey : y * q = z * D := by rw [hz, ← hD, Nat.mul_comm (2 ^ k), Nat.mul_assoc, Nat.mul_comm (2 ^ k)]
    rw [ey]
    unfold dist
    rcases Nat.lt_trichotomy z r with h | h | h
    · have h1 : (z + 1) * D ≤ r * D := Nat.mul_le_mul_right _ h
      rw [Nat.add_mul, Nat.one_mul] at h1
      omega
    · rw [h]; exact Nat.le_refl _
    · have h1 : (r + 1) * D ≤ z * D := Nat.mul_le_mul_right _ h
      rw [Nat.add_mul, Nat.one_mul] at h1
      omega
  · -- `y` has fewer bits than `p / q`
    have hg : gap y < k := Nat.lt_of_not_le fun h => hmul (Nat.dvd_trans (Nat.pow_dvd_pow 2 h) hy)
    have hx0 : p / q ≠ 0 := by
      intro h0; rw [h0] at hk; simp [gap] at hk; omega
    have hy1 : y < 2 ^ (52 + k) := by
      by_cases hy0 : y = 0
      · rw [hy0]; exact Nat.two_pow_pos _
      · refine (Nat.log2_lt hy0).1 ?_
        unfold gap at hg; omega
    have hx1 : 2 ^ (52 + k) ≤ p / q := by
      refine (Nat.le_log2 hx0).1 ?_
      unfold gap at hk hg; omega
    -- the multiple of `2 ^ k` below `p / q` is at least `2 ^ (52 + k)`
    have h3 : 2 ^ 52 ≤ p / D := by
      rw [← hD, ← Nat.div_div_eq_div_mul]
      refine (Nat.le_div_iff_mul_le (Nat.two_pow_pos _)).2 ?_
      rw [← Nat.pow_add]; exact hx1
    have h4 : 2 ^ 52 * D ≤ p / D * D := Nat.mul_le_mul_right _ h3
    have h5 : y * q ≤ 2 ^ 52 * D := by
      rw [← hD, ← Nat.mul_assoc, Nat.mul_comm (2 ^ 52), Nat.mul_assoc, ← Nat.pow_add, Nat.mul_comm q]
      exact Nat.mul_le_mul_right _ (Nat.le_of_lt hy1)
    have h6 : p / D * D ≤ r * D := Nat.mul_le_mul_right _ n3
    have h7 : D * (p / D) = p / D * D := Nat.mul_comm ..
    unfold dist
    rcases (show r = p / D ∨ r = p / D + 1 by omega) with e | e
    · rw [e] at n1 n2 ⊢; omega
    · rw [e, Nat.add_mul, Nat.one_mul] at n1 n2 ⊢; omega

end Verif.Eval
