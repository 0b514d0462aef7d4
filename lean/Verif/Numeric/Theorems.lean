import Verif.Numeric.Complete

/-!
# C89: numeric literals are read as ECMA-262 says
-/

namespace Verif.Numeric

/-- C89, soundness: whatever is read as a number or BigInt at the start of a text is the text of a
literal of that kind, the number read is its mathematical value, the BigInt's digits are its value
in decimal, and strict mode code has no literal with a zero and another digit at its start. -/
theorem C89_read_is_literal_partial (strict : Bool) (src rest : List Char) (l : Lit)
    (h : readNumeric strict src = some (l, rest)) :
    ∃ p, src = p ++ rest ∧
      match l with
      | .num v => NumLit p v ∧ (strict = true → ¬ Legacy p)
      | .big ds => ∃ n, BigLit p n ∧ Decimal ds n := by
  unfold readNumeric at h
  cases ht : lexNumeric src with
  | none => rw [ht] at h; cases h
  | some t =>
    obtain ⟨k, t, r⟩ := t
    rw [ht, Option.bind_some] at h
    cases k with
    | invalid => cases h
    | number =>
      obtain ⟨h1, h2, _⟩ := lexNumeric_sound ht (by decide)
      dsimp only at h
      cases hv : litNum strict t with
      | none => rw [hv] at h; cases h
      | some v =>
        rw [hv] at h
        cases h
        refine ⟨t, h1.symm, ?_⟩
        unfold litNum at hv
        split at hv
        · cases hv
        · rename_i hs
          have hn := h2 rfl v hv
          refine ⟨hn, ?_⟩
          rintro rfl hl
          have := (oldStyle_iff hn).2 hl
          rw [Bool.true_and] at hs
          exact hs this
    | bigint =>
      obtain ⟨h1, _, h3⟩ := lexNumeric_sound ht (by decide)
      obtain ⟨n, hn⟩ := h3 rfl
      dsimp only at h
      rw [normaliseBigint_big hn] at h
      cases h
      exact ⟨t, h1.symm, n, hn, decText_decimal n⟩

example : readNumeric false "1_000.5e-1;".toList = some (.num (10005 / 100), [';']) := by
  decide +kernel

/-- C89, completeness for numbers: the longest literal at the start of a text is read with its
value, when no character follows that ECMA-262 forbids there.  A legacy octal literal before a
point and a digit is the exception: `010.5` has no reading in ECMA-262 either, because two literals
never follow each other. -/
theorem C89_number_is_read (strict : Bool) (p rest : List Char) (v : ℚ) (hp : NumLit p v)
    (hl : Longest p (p ++ rest)) (hg : ∀ c, rest.head? = some c → ¬ Glued c)
    (hs : strict = true → ¬ Legacy p) :
    readNumeric strict (p ++ rest) = some (.num v, rest) ∨
      LegacyOctal p ∧ ∃ c t, rest = '.' :: c :: t ∧ isDec c = true := by
  rcases lexNumeric_num hp hg hl.2 with h | h
  · left
    unfold readNumeric
    rw [h, Option.bind_some]
    have : litNum strict p = some v := by
      unfold litNum
      rw [if_neg, fromLiteral_num hp]
      intro hc
      simp only [Bool.and_eq_true] at hc
      exact hs hc.1 ((oldStyle_iff hp).1 hc.2)
    simp only [this, Option.map_some]
  · exact .inr h

/-- C89: strict mode code does not have the literals it must not have. -/
theorem C89_strict (p rest : List Char) (v : ℚ) (hp : NumLit p v)
    (hl : Longest p (p ++ rest)) (hg : ∀ c, rest.head? = some c → ¬ Glued c) (hs : Legacy p) :
    readNumeric true (p ++ rest) = none := by
  have hold : litNum true p = none := by
    unfold litNum
    rw [if_pos]
    have := (oldStyle_iff hp).2 hs
    simpa [oldStyle] using this
  rcases lexNumeric_num hp hg hl.2 with h | ⟨⟨s, rfl, hn, ho⟩, c, t, rfl, hc⟩
  · unfold readNumeric
    rw [h, Option.bind_some]
    simp only [hold, Option.map_none]
  · -- the literal is followed by a fraction: an invalid token
    cases hr : readNumeric true ('0' :: s ++ '.' :: c :: t) with
    | none => rfl
    | some q =>
      obtain ⟨l, r⟩ := q
      obtain ⟨q, hq, hlit⟩ := C89_read_is_literal_partial true _ _ _ hr
      have hd : Digits isDec ('0' :: s) := .of_all (by simp) (by
        intro c hc
        rcases List.mem_cons.1 hc with rfl | hc
        · decide
        · exact isOct_isDec (ho c hc))
      have hst : Stops isDec ('.' :: c :: t) := by
        intro x hx
        obtain rfl : '.' = x := by simpa using hx
        decide
      have hlex := lexNumeric_digits (t := '.' :: c :: t) hd (by
        intro m hm
        obtain rfl : '.' = m := by simpa using hm
        decide)
      have hlo : lexLegacyOctal ('0' :: s) = true := by
        have h1 : 1 < ('0' :: s).length := by
          cases s with
          | nil => exact absurd rfl hn
          | cons => simp
        have h2 : (('0' :: s).filter (· != '_')).all isOct = true := by
          rw [List.all_eq_true]
          intro c hc
          rcases List.mem_cons.1 (List.mem_filter.1 hc).1 with rfl | hc
          · decide
          · exact ho c hc
        unfold lexLegacyOctal
        rw [h2, decide_eq_true h1]
        rfl
      have hinv : (lexDecimal ('0' :: s ++ '.' :: c :: t)).1 = .invalid := by
        unfold lexDecimal
        rw [lexInteger_digits hd hst]
        simp [lexFraction, hlo, hc]
      unfold readNumeric at hr
      rw [hlex, Option.bind_some, hinv] at hr
      cases hr

/-- C89, completeness for BigInts: a BigInt literal at the start of a text is read, and its digits
are its value in decimal. -/
theorem C89_bigint_is_read (strict : Bool) (p rest : List Char) (n : Nat) (hp : BigLit p n) :
    ∃ ds, readNumeric strict (p ++ rest) = some (.big ds, rest) ∧ Decimal ds n := by
  refine ⟨decText n, ?_, decText_decimal n⟩
  unfold readNumeric
  rw [lexNumeric_big hp, Option.bind_some]
  simp only [normaliseBigint_big hp, Option.map_some]

/-- C89: `from_literal` by itself, which callers may use without the lexer, gives every literal its
mathematical value. -/
theorem C89_from_literal (p : List Char) (v : ℚ) (hp : NumLit p v) : fromLiteral p = some v :=
  fromLiteral_num hp

/-- A literal has one value. -/
theorem numLit_unique {p : List Char} {v w : ℚ} (hv : NumLit p v) (hw : NumLit p w) : v = w := by
  have h1 := fromLiteral_num hv
  rw [fromLiteral_num hw] at h1
  exact (Option.some.inj h1).symm

/-! ## Cases that meet the hypotheses -/

/-- `1_0.5e2` is a literal; its value is 1050. -/
theorem sample_num : NumLit "1_0.5e2".toList ((mv 10 "1_0".toList + mvFraction ['5']) * 10 ^ (2 : ℤ)) :=
  .point (i := "1_0".toList) (f := ['5']) (e := "e2".toList)
    (.nonZero (by decide) (.sep (.one (by decide)) (by decide)))
    (.inr (.one (by decide))) (.unsigned (.inl rfl) (.one (by decide)))

example : readNumeric true "1_0.5e2 + x".toList = some (.num 1050, " + x".toList) := by
  decide +kernel

/-- It is the longest literal at the start of `1_0.5e2;`, and `;` may follow it. -/
example : Longest "1_0.5e2".toList ("1_0.5e2".toList ++ [';']) ∧
    (∀ c, [';'].head? = some c → ¬ Glued c) := by
  constructor
  · refine ⟨⟨_, rfl⟩, ?_⟩
    intro q hq hpre
    rcases Nat.lt_or_ge "1_0.5e2".toList.length q.length with h | h
    · have hall : q = "1_0.5e2;".toList := by
        apply List.IsPrefix.eq_of_length hpre
        have := hpre.length_le
        simp at this h ⊢
        omega
      subst hall
      rcases hq with ⟨v, hv⟩ | ⟨n, hn⟩
      · have := fromLiteral_num hv
        have hnone : fromLiteral "1_0.5e2;".toList = none := by decide +kernel
        rw [hnone] at this
        cases this
      · have := normaliseBigint_big hn
        have hnone : normaliseBigint "1_0.5e2;".toList = none := by decide +kernel
        rw [hnone] at this
        cases this
    · exact h
  · intro c hc
    obtain rfl : ';' = c := by simpa using hc
    unfold Glued
    decide

example : readNumeric true "0x1F_ffn".toList = some (.big "8191".toList, []) := by decide +kernel
example : BigLit "0xFn".toList 15 := .hex (s := ['F']) (.inl rfl) (.one (by decide))
example : readNumeric false "010)".toList = some (.num 8, [')']) := by decide +kernel
example : readNumeric true "010)".toList = none := by decide +kernel
example : readNumeric false "08.5".toList = some (.num (17 / 2), []) := by decide +kernel
example : Legacy "08.5".toList := ⟨'8', ".5".toList, rfl, by decide⟩
example : readNumeric false "1__0".toList = none := by decide +kernel
example : readNumeric false "0_1".toList = none := by decide +kernel
example : readNumeric false "010.5".toList = none := by decide +kernel
example : readNumeric false "0b12".toList = none := by decide +kernel
example : readNumeric false "1e".toList = none := by decide +kernel
example : readNumeric false "00n".toList = none := by decide +kernel

/-- C89 does not hold in full: ECMA-262 does not let an identifier follow a numeric literal without
something between them, but `3in x` is read as the number 3 and what comes after it. -/
theorem C89_glued_violated :
    readNumeric true "3in x".toList = some (.num 3, "in x".toList) ∧ Glued 'i' := by
  refine ⟨by decide +kernel, ?_⟩
  exact .inr (.inl (by decide))

/-- The digits that the grammar is written with are those of ECMA-262, and their values are their
places in `0123456789abcdef`. -/
theorem C89_digits (c : Char) :
    (isDec c = true ↔ c ∈ "0123456789".toList) ∧ (isBin c = true ↔ c ∈ "01".toList) ∧
    (isOct c = true ↔ c ∈ "01234567".toList) ∧
    (isHex c = true ↔ c ∈ "0123456789abcdefABCDEF".toList) ∧
    (isHex c = true → "0123456789abcdef".toList[digitOf c]? = some c.toLower) := by
  have small : ∀ n : Fin 128,
      (isDec (Char.ofNat n) = true ↔ Char.ofNat n ∈ "0123456789".toList) ∧
      (isBin (Char.ofNat n) = true ↔ Char.ofNat n ∈ "01".toList) ∧
      (isOct (Char.ofNat n) = true ↔ Char.ofNat n ∈ "01234567".toList) ∧
      (isHex (Char.ofNat n) = true ↔ Char.ofNat n ∈ "0123456789abcdefABCDEF".toList) ∧
      (isHex (Char.ofNat n) = true →
        "0123456789abcdef".toList[digitOf (Char.ofNat n)]? = some (Char.ofNat n).toLower) := by
    decide +kernel
  by_cases h : c.toNat < 128
  · have := small ⟨c.toNat, h⟩
    simpa only [Char.ofNat_toNat] using this
  · have big : ∀ d : Char, d.toNat < 128 → c ≠ d := by
      rintro d hd rfl; exact h hd
    have le : ∀ d : Char, d.toNat < 128 → ¬ c ≤ d := by
      intro d hd hcd
      have : c.toNat ≤ d.toNat := hcd
      omega
    have b1 : isDec c = false := by simp [isDec, le '9' (by decide)]
    have b2 : isBin c = false := by simp [isBin, big '0' (by decide), big '1' (by decide)]
    have b3 : isOct c = false := by simp [isOct, le '7' (by decide)]
    have b4 : isHex c = false := by
      simp [isHex, b1, le 'f' (by decide), le 'F' (by decide)]
    have n : ∀ l : List Char, (∀ d ∈ l, d.toNat < 128) → c ∉ l :=
      fun l hl hc => h (hl c hc)
    rw [b1, b2, b3, b4]
    refine ⟨by simpa using n "0123456789".toList (by decide),
      by simpa using n "01".toList (by decide), ?_, ?_, by simp⟩
    · simpa using n "01234567".toList (by decide)
    · simpa using n "0123456789abcdefABCDEF".toList (by decide)

example : isHex 'b' = true ∧ digitOf 'b' = 11 := by decide

end Verif.Numeric
