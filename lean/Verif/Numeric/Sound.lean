import Verif.Numeric.Values

/-!
# Numeric literals: what the lexer and the parser accept is a literal
-/

namespace Verif.Numeric

/-! ## Parts of a decimal literal -/

theorem lexExponent_text (s : List Char) : (lexExponent s).1 ++ (lexExponent s).2.1 = s := by
  unfold lexExponent
  split
  · split
    · split
      · split
        · simp [scan_text]
        · simp [scan_text]
      · simp [scan_text]
    · rfl
  · rfl

theorem scan_both {d : Char → Bool} {s : List Char} (h : ((scan d s).ok && (scan d s).digits) = true) :
    Digits d (scan d s).text := by
  simp only [Bool.and_eq_true] at h
  rcases scan_sound h.1 with ⟨_, h'⟩ | ⟨h', _⟩
  · exact h'
  · rw [h.2] at h'; cases h'

theorem lexExponent_sound {s : List Char} (h : (lexExponent s).2.2 = true) :
    ∃ x, Exponent (lexExponent s).1 x := by
  unfold lexExponent at h ⊢
  cases s with
  | nil => exact ⟨0, .none⟩
  | cons c cs =>
    dsimp only at h ⊢
    split
    · rename_i hc
      rw [if_pos hc] at h
      have hc' : c = 'e' ∨ c = 'E' := by simpa using hc
      cases cs with
      | nil => exact ⟨_, .unsigned hc' (scan_both h)⟩
      | cons g ds =>
        dsimp only at h ⊢
        split
        · rename_i hg
          rw [if_pos hg] at h
          have hg' : g = '+' ∨ g = '-' := by simpa using hg
          rcases hg' with rfl | rfl
          · exact ⟨_, .plus hc' (scan_both h)⟩
          · exact ⟨_, .minus hc' (scan_both h)⟩
        · rename_i hg
          rw [if_neg hg] at h
          exact ⟨_, .unsigned hc' (scan_both h)⟩
    · exact ⟨0, .none⟩

theorem lexFraction_text (a b : Bool) (s : List Char) :
    (lexFraction a b s).1 ++ (lexFraction a b s).2.1 = s := by
  unfold lexFraction
  split
  · split
    · split
      · simp [scan_text]
      · rfl
    · simp [scan_text]
  · rfl

/-- Nothing, or a point and perhaps digits. -/
def Fraction (f : List Char) : Prop := f = [] ∨ ∃ g, f = '.' :: g ∧ (g = [] ∨ Digits isDec g)

theorem lexFraction_sound {a b : Bool} {s : List Char} (h : (lexFraction a b s).2.2 = true) :
    Fraction (lexFraction a b s).1 := by
  by_cases hs : ∃ cs, s = '.' :: cs
  · obtain ⟨cs, rfl⟩ := hs
    simp only [lexFraction] at h ⊢
    split
    · rename_i hb
      rw [if_pos hb] at h
      split
      · rename_i hd
        rw [if_pos hd] at h
        cases h
      · exact .inl rfl
    · rename_i hb
      rw [if_neg hb] at h
      simp only [Bool.and_eq_true] at h
      rcases scan_sound h.1 with ⟨_, h'⟩ | ⟨_, h'⟩
      · exact .inr ⟨_, rfl, .inr h'⟩
      · exact .inr ⟨_, rfl, .inl h'⟩
  · unfold lexFraction
    split
    · exact absurd ⟨_, rfl⟩ hs
    · exact .inl rfl

theorem lexFraction_digits {cs : List Char} (h : (lexFraction false false ('.' :: cs)).2.2 = true) :
    ∃ g, (lexFraction false false ('.' :: cs)).1 = '.' :: g ∧ Digits isDec g := by
  simp only [lexFraction, Bool.false_eq_true, if_false, Bool.false_or] at h ⊢
  exact ⟨_, rfl, scan_both h⟩

theorem lexInteger_text (s : List Char) : (lexInteger s).text ++ (lexInteger s).rest = s := by
  unfold lexInteger
  split
  · exact scan_text _ _
  · rfl

/-- The parts of a number token. -/
theorem lexDecimal_number {s t r : List Char} (h : lexDecimal s = (.number, t, r)) :
    t ++ r = s ∧ ∃ i f e x, t = i ++ f ++ e ∧ Exponent e x ∧ Fraction f ∧
      (Digits isDec i ∨ i = [] ∧ ∃ g, f = '.' :: g ∧ Digits isDec g) := by
  unfold lexDecimal at h
  dsimp only at h
  have htext := lexInteger_text s
  split at h
  · split at h <;> simp at h
  · simp only [Prod.mk.injEq] at h
    obtain ⟨hk, ht, hr⟩ := h
    have hk : (((lexInteger s).ok && (lexFraction (lexInteger s).digits
        ((lexInteger s).digits && lexLegacyOctal (lexInteger s).text) (lexInteger s).rest).2.2) &&
        (lexExponent (lexFraction (lexInteger s).digits
        ((lexInteger s).digits && lexLegacyOctal (lexInteger s).text) (lexInteger s).rest).2.1).2.2)
          = true := by
      by_contra hc
      rw [if_neg hc] at hk
      cases hk
    simp only [Bool.and_eq_true] at hk
    obtain ⟨⟨k1, k2⟩, k3⟩ := hk
    obtain ⟨x, hx⟩ := lexExponent_sound k3
    refine ⟨?_, _, _, _, x, ht.symm, hx, lexFraction_sound k2, ?_⟩
    · rw [← ht, ← hr, List.append_assoc, lexExponent_text, List.append_assoc, lexFraction_text,
        htext]
    · unfold lexInteger at k1 k2 ⊢
      split
      · rename_i hh
        rw [if_pos hh] at k1
        exact .inl (scan_both k1)
      · rename_i hh
        rw [if_neg hh] at k2
        right
        refine ⟨rfl, ?_⟩
        have hh : s.head? = some '.' := by simpa using hh
        cases s with
        | nil => cases hh
        | cons c cs =>
          obtain rfl : c = '.' := by simpa using hh
          simp only [Bool.false_and] at k2 ⊢
          exact lexFraction_digits k2

/-- The parts of a BigInt token in decimal. -/
theorem lexDecimal_bigint {s t r : List Char} (h : lexDecimal s = (.bigint, t, r)) :
    t ++ r = s ∧ ∃ i, t = i ++ ['n'] ∧ Digits isDec i ∧ (i.head? = some '0' → i = ['0']) := by
  unfold lexDecimal at h
  dsimp only at h
  have htext := lexInteger_text s
  split at h
  · rename_i hn
    simp only [Bool.and_eq_true, beq_iff_eq, bne_iff_ne, ne_eq] at hn
    simp only [Prod.mk.injEq] at h
    obtain ⟨hk, ht, hr⟩ := h
    have hk : ((lexInteger s).ok && !(decide (1 < (lexInteger s).text.length) &&
        s.head? == some '0')) = true := by
      by_contra hc
      rw [if_neg hc] at hk
      cases hk
    simp only [Bool.and_eq_true, Bool.not_eq_true', Bool.and_eq_false_iff, decide_eq_false_iff_not,
      beq_eq_false_iff_ne] at hk
    have hrest : (lexInteger s).rest = 'n' :: (lexInteger s).rest.tail := by
      cases hr' : (lexInteger s).rest with
      | nil => rw [hr'] at hn; cases hn.1
      | cons c cs =>
        rw [hr'] at hn
        simp only [List.head?_cons, Option.some.injEq] at hn
        rw [hn.1]
        rfl
    have hd : Digits isDec (lexInteger s).text := by
      have k1 := hk.1
      unfold lexInteger at k1 ⊢
      rw [if_pos (by simpa using hn.2)] at k1 ⊢
      exact scan_both k1
    refine ⟨?_, _, ht.symm, hd, ?_⟩
    · rw [← ht, ← hr, List.append_assoc, List.singleton_append, ← hrest, htext]
    · intro h0
      obtain ⟨c, u, hcu, _⟩ := hd.head
      rw [hcu] at h0 ⊢
      obtain rfl : c = '0' := by simpa using h0
      have hs0 : s.head? = some '0' := by rw [← htext, hcu]; rfl
      rcases hk.2 with hk | hk
      · rw [hcu] at hk
        simp only [List.length_cons, Nat.not_lt] at hk
        have : u = [] := List.eq_nil_of_length_eq_zero (by omega)
        rw [this]
      · exact absurd hs0 hk
  · simp only [Prod.mk.injEq] at h
    have h1 := h.1
    split at h1 <;> cases h1

/-! ## Bases -/

theorem lexSuffix_text (s : List Char) : (lexSuffix s).2.1 ++ (lexSuffix s).2.2 = s ∧
    (lexSuffix s).2.1 = if (lexSuffix s).1 then ['n'] else [] := by
  unfold lexSuffix
  split <;> simp

theorem lexRadix_sound {d : Char → Bool} {p s t r : List Char} {k : Kind}
    (h : lexRadix d p s = (k, t, r)) (hk : k ≠ .invalid) :
    t ++ r = p ++ s ∧ ∃ ds, Digits d ds ∧
      t = p ++ ds ++ (if k = .bigint then ['n'] else []) := by
  unfold lexRadix at h
  simp only [Prod.mk.injEq] at h
  obtain ⟨h1, h2, h3⟩ := h
  have hc : ((scan d s).ok && (scan d s).digits &&
      ((scan isDec (scan d s).rest).ok && (scan isDec (scan d s).rest).text.isEmpty)) = true := by
    by_contra hc
    rw [if_neg hc] at h1
    exact hk h1.symm
  rw [if_pos hc] at h1
  simp only [Bool.and_eq_true] at hc
  have hx : (scan isDec (scan d s).rest).text = [] := by simpa using hc.2.2
  have hxr : (scan isDec (scan d s).rest).rest = (scan d s).rest := by
    have := scan_text isDec (scan d s).rest
    rwa [hx, List.nil_append] at this
  rw [hxr] at h1 h2 h3
  rw [hx, List.append_nil] at h2
  obtain ⟨q1, q2⟩ := lexSuffix_text (scan d s).rest
  refine ⟨?_, _, scan_both (by simpa using hc.1), ?_⟩
  · rw [← h2, ← h3, List.append_assoc, q1, List.append_assoc, scan_text]
  · rw [← h2, q2]
    congr 1
    cases hb : (lexSuffix (scan d s).rest).1 <;> rw [hb] at h1 <;> rw [← h1] <;> rfl

theorem lexHex_sound {p s t r : List Char} {k : Kind}
    (h : lexHex p s = (k, t, r)) (hk : k ≠ .invalid) :
    t ++ r = p ++ s ∧ ∃ ds, Digits isHex ds ∧
      t = p ++ ds ++ (if k = .bigint then ['n'] else []) := by
  unfold lexHex at h
  simp only [Prod.mk.injEq] at h
  obtain ⟨h1, h2, h3⟩ := h
  have hc : ((scan isHex s).digits && (scan isHex s).ok) = true := by
    by_contra hc
    rw [if_neg hc] at h1
    exact hk h1.symm
  rw [if_pos hc] at h1
  obtain ⟨q1, q2⟩ := lexSuffix_text (scan isHex s).rest
  refine ⟨?_, _, scan_both (by rw [Bool.and_comm]; exact hc), ?_⟩
  · rw [← h2, ← h3, List.append_assoc, q1, List.append_assoc, scan_text]
  · rw [← h2, q2]
    congr 1
    cases hb : (lexSuffix (scan isHex s).rest).1 <;> rw [hb] at h1 <;> rw [← h1] <;> rfl

/-! ## Numbers -/

theorem tail_start {f e : List Char} {x : ℤ} (hf : Fraction f) (he : Exponent e x) :
    TailStart (f ++ e) := by
  rcases hf with rfl | ⟨g, rfl, _⟩
  · exact .exp he
  · exact .point _

/-- Digits without separators are digits. -/
theorem Digits.all {d : Char → Bool} {s : List Char} (h : Digits d s) (hu : '_' ∉ s) :
    ∀ c ∈ s, d c = true := by
  intro c hc
  refine (h.chars c hc).resolve_right ?_
  rintro rfl
  exact hu hc

theorem isDec_cases {c : Char} (h : isDec c = true) : isOct c = true ∨ c = '8' ∨ c = '9' := by
  by_cases ho : isOct c = true
  · exact .inl ho
  · right
    simp only [isDec, isOct, Bool.and_eq_true, decide_eq_true_eq] at h ho
    have h7 : ¬ c ≤ '7' := fun h7 => ho ⟨h.1, h7⟩
    have a1 : c.toNat ≤ 57 := h.2
    have a2 : ¬ c.toNat ≤ 55 := h7
    have : c.toNat = 56 ∨ c.toNat = 57 := by omega
    rcases this with h | h
    · left; rw [← Char.ofNat_toNat c, h]
    · right; rw [← Char.ofNat_toNat c, h]

/-- The parts of a literal, given its integer part. -/
theorem numLit_of_parts {i f e : List Char} {x : ℤ} (hi : DecimalInteger i) (hf : Fraction f)
    (he : Exponent e x) : ∃ v, NumLit (i ++ f ++ e) v := by
  rcases hf with rfl | ⟨g, rfl, hg⟩
  · rw [List.append_nil]
    exact ⟨_, .integer hi he⟩
  · exact ⟨_, .point hi hg he⟩

theorem number_sound {i f e : List Char} {x : ℤ} {v : ℚ} (he : Exponent e x) (hf : Fraction f)
    (hi : Digits isDec i ∨ i = [] ∧ ∃ g, f = '.' :: g ∧ Digits isDec g)
    (hv : fromLiteral (i ++ f ++ e) = some v) : NumLit (i ++ f ++ e) v := by
  suffices ∃ w, NumLit (i ++ f ++ e) w by
    obtain ⟨w, hw⟩ := this
    rw [fromLiteral_num hw] at hv
    cases hv
    exact hw
  rcases hi with hi | ⟨rfl, g, rfl, hg⟩
  · obtain ⟨c, s, rfl, hc⟩ := hi.head
    by_cases h0 : c = '0'
    · subst h0
      by_cases hs : s = []
      · subst hs
        exact numLit_of_parts .zero hf he
      · -- a zero and something more
        have ht := tail_start hf he
        obtain ⟨a, b, hab⟩ := List.exists_cons_of_ne_nil hs
        have hnt : ∀ c ∈ s, c ≠ '.' ∧ c ≠ 'e' ∧ c ≠ 'E' := by
          intro c hc
          rcases hi.chars c (by simp [hc]) with h | rfl
          · exact isDec_no_tail h
          · decide
        have hip : intPart ('0' :: s ++ f ++ e) = '0' :: s := by
          rw [List.append_assoc]
          exact intPart_append hnt ht
        have hpre : ∀ c u, ('0' :: s ++ f ++ e) = '0' :: c :: u → isPrefixLetter c = false := by
          intro c u h
          rw [hab] at h
          have h := (List.cons.inj (List.cons.inj h).2).1
          rcases hi.chars a (by simp [hab]) with hd | hd
          · rw [← h]; exact isDec_not_prefix hd
          · rw [← h, hd]; decide
        rw [fromLiteral_rest hpre] at hv
        unfold fromRest at hv
        have hlen : decide (1 < ('0' :: s ++ f ++ e).length) = true := by
          rw [hab]; simp
        rw [hip, hlen] at hv
        have hhd : (('0' :: s ++ f ++ e).head? == some '0') = true := rfl
        simp only [hhd, Bool.and_self, if_true, List.drop_succ_cons, List.drop_zero] at hv
        split at hv
        · cases hv
        · rename_i hu
          have hu' : '_' ∉ '0' :: s := by simpa using hu
          have hall : ∀ c ∈ s, isDec c = true := fun c hc => hi.all hu' c (by simp [hc])
          rw [if_neg (by simp [List.all_eq_true.2 hall])] at hv
          by_cases h8 : ∃ c ∈ s, c = '8' ∨ c = '9'
          · exact numLit_of_parts (.nonOctal hall h8) hf he
          · have hoct : ∀ c ∈ s, isOct c = true := fun c hc =>
              (isDec_cases (hall c hc)).resolve_right fun h => h8 ⟨c, hc, h⟩
            have hany : s.any (fun c => c == '8' || c == '9') = false := by
              rw [List.any_eq_false]
              intro c hc h
              exact h8 ⟨c, hc, by simpa using h⟩
            have hse : (!s.isEmpty) = true := by simp [hs]
            simp only [hse, hany, if_true, Bool.not_false] at hv
            split at hv
            · cases hv
            · rename_i hl
              have : f ++ e = [] := by
                simp only [bne_iff_ne, ne_eq, Decidable.not_not, List.length_append,
                  List.length_cons] at hl
                apply List.eq_nil_of_length_eq_zero
                rw [List.length_append]
                omega
              rw [List.append_assoc, this, List.append_nil]
              exact ⟨_, .legacyOctal hs hoct⟩
    · exact numLit_of_parts (.nonZero h0 hi) hf he
  · exact ⟨_, .fraction hg he⟩

/-! ## BigInts -/

theorem bigDigits_digits {d : Char → Bool} (hd : d '_' = false) {s : List Char} (h : Digits d s)
    (rest : List Char) : ∀ saw,
      bigDigits d false saw (s ++ rest) = (bigDigits d false true rest).map (bare s ++ ·) := by
  have ne : ∀ {c}, d c = true → (c == '_') = false ∧ c ≠ '_' := by
    intro c hc
    have : c ≠ '_' := by
      rintro rfl
      rw [hd] at hc
      cases hc
    exact ⟨by simpa using this, this⟩
  induction h generalizing rest with
  | one hc =>
    intro saw
    simp [bigDigits, ne hc, hc, bare]
  | more _ hc ih =>
    intro saw
    rw [List.append_assoc, ih, bare_append, bare_cons (ne hc).2]
    simp only [List.singleton_append, bigDigits, (ne hc).1, hc, Bool.false_eq_true, if_false, if_true]
    cases bigDigits d false true rest <;> simp [bare]
  | sep _ hc ih =>
    intro saw
    rw [List.append_assoc, ih, bare_append]
    have : ∀ c : Char, c ≠ '_' → bare ['_', c] = [c] := by
      intro c hc
      simp [bare, hc]
    rw [this _ (ne hc).2]
    simp only [List.cons_append, List.nil_append, bigDigits, (ne hc).1, hc, Bool.false_eq_true,
      if_false, if_true, beq_self_eq_true, Bool.not_true, Bool.or_self]
    cases bigDigits d false true rest <;> simp

theorem bigValue_digits {d : Char → Bool} (hd : d '_' = false) {radix : Nat} {s : List Char}
    (h : Digits d s) (h0 : radix = 10 → s.head? = some '0' → s = ['0']) :
    bigValue d radix s = some (decText (mv radix s)) := by
  have h1 : bigDigits d false false s = some (bare s) := by
    have := bigDigits_digits hd h [] false
    simpa [bigDigits] using this
  have h2 : (radix == 10 && decide (1 < (bare s).length) && (bare s).head? == some '0') = false := by
    cases hc : (radix == 10 && decide (1 < (bare s).length) && (bare s).head? == some '0') with
    | false => rfl
    | true =>
      simp only [Bool.and_eq_true, beq_iff_eq, decide_eq_true_eq] at hc
      obtain ⟨⟨hr, hl⟩, hh⟩ := hc
      obtain ⟨c, t, hb, hs, _⟩ := h.bare_head hd
      have hs0 : s = ['0'] := by
        apply h0 hr
        rw [hb] at hh
        rw [hs]
        simpa using hh
      rw [hs0] at hl
      exact absurd hl (by decide)
  have h3 : (bare s).isEmpty = false := by simp [h.bare_ne_nil hd]
  have h4 : (bare s).all d = true := List.all_eq_true.2 h.bare_all
  unfold bigValue
  simp only [h1, Option.bind_some, h2, Bool.false_eq_true, if_false, parseBytes, h3, h4,
    Bool.not_true, Bool.or_self, Option.map_some, natOf_bare]

theorem normaliseBigint_big {s : List Char} {n : Nat} (h : BigLit s n) :
    normaliseBigint s = some (decText n) := by
  cases h with
  | zero => decide
  | @decimal c s hc hs =>
    unfold normaliseBigint
    have h1 : ((c :: s ++ ['n']).getLast? != some 'n') = false := by
      rw [List.getLast?_append]; simp
    have h2 : (c :: s ++ ['n']).dropLast = c :: s := List.dropLast_concat
    rw [h1, h2]
    simp only [Bool.false_eq_true, if_false]
    have : bigValue isDec 10 (c :: s) = some (decText (mv 10 (c :: s))) :=
      bigValue_digits isDec_us hs (fun _ h => absurd (by simpa using h) hc)
    split <;> first
      | exact this
      | (rename_i heq; exact absurd (List.cons.inj heq).1 hc)
  | @binary m s hm hs =>
    unfold normaliseBigint
    have h1 : (('0' :: m :: s ++ ['n']).getLast? != some 'n') = false := by
      rw [List.getLast?_append]; simp
    have h2 : ('0' :: m :: s ++ ['n']).dropLast = '0' :: m :: s := List.dropLast_concat
    rw [h1, h2]
    rcases hm with rfl | rfl <;> exact bigValue_digits isBin_us hs (fun h => absurd h (by decide))
  | @octal m s hm hs =>
    unfold normaliseBigint
    have h1 : (('0' :: m :: s ++ ['n']).getLast? != some 'n') = false := by
      rw [List.getLast?_append]; simp
    have h2 : ('0' :: m :: s ++ ['n']).dropLast = '0' :: m :: s := List.dropLast_concat
    rw [h1, h2]
    rcases hm with rfl | rfl <;> exact bigValue_digits isOct_us hs (fun h => absurd h (by decide))
  | @hex m s hm hs =>
    unfold normaliseBigint
    have h1 : (('0' :: m :: s ++ ['n']).getLast? != some 'n') = false := by
      rw [List.getLast?_append]; simp
    have h2 : ('0' :: m :: s ++ ['n']).dropLast = '0' :: m :: s := List.dropLast_concat
    rw [h1, h2]
    rcases hm with rfl | rfl <;> exact bigValue_digits isHex_us hs (fun h => absurd h (by decide))

/-! ## Both together -/

/-- A token that is not invalid, and whose text the parser accepts, is a literal. -/
theorem lexNumeric_sound {s t r : List Char} {k : Kind} (h : lexNumeric s = some (k, t, r))
    (hk : k ≠ .invalid) : t ++ r = s ∧
      (k = .number → ∀ v, fromLiteral t = some v → NumLit t v) ∧
      (k = .bigint → ∃ n, BigLit t n) := by
  unfold lexNumeric at h
  cases s with
  | nil => cases h
  | cons c cs =>
    dsimp only at h
    have pre : ∀ x y : Char, (c == '0' && (cs.head? == some x || cs.head? == some y)) = true →
        ∃ m u, c = '0' ∧ cs = m :: u ∧ (m = x ∨ m = y) := by
      intro x y hb
      simp only [Bool.and_eq_true, Bool.or_eq_true, beq_iff_eq] at hb
      cases cs with
      | nil => simp at hb
      | cons m u => exact ⟨m, u, hb.1, rfl, by simpa using hb.2⟩
    have fin : ∀ {v w : ℚ} {t : List Char}, NumLit t w → fromLiteral t = some v → NumLit t v := by
      intro v w t hw hv
      rw [fromLiteral_num hw] at hv
      cases hv
      exact hw
    split at h
    · rename_i hb
      obtain ⟨m, u, rfl, rfl, hm⟩ := pre _ _ hb
      obtain ⟨h1, ds, hds, rfl⟩ := lexRadix_sound (Option.some.inj h) hk
      refine ⟨h1, ?_, ?_⟩
      · rintro rfl v hv
        exact fin (.binary hm (by simpa using hds)) (by simpa using hv)|> (by simpa using ·)
      · rintro rfl
        exact ⟨_, .binary hm hds⟩
    · split at h
      · rename_i hb
        obtain ⟨m, u, rfl, rfl, hm⟩ := pre _ _ hb
        obtain ⟨h1, ds, hds, rfl⟩ := lexHex_sound (Option.some.inj h) hk
        refine ⟨h1, ?_, ?_⟩
        · rintro rfl v hv
          exact fin (.hex hm (by simpa using hds)) (by simpa using hv)|> (by simpa using ·)
        · rintro rfl
          exact ⟨_, .hex hm hds⟩
      · split at h
        · rename_i hb
          obtain ⟨m, u, rfl, rfl, hm⟩ := pre _ _ hb
          obtain ⟨h1, ds, hds, rfl⟩ := lexRadix_sound (Option.some.inj h) hk
          refine ⟨h1, ?_, ?_⟩
          · rintro rfl v hv
            exact fin (.octal hm (by simpa using hds)) (by simpa using hv)|> (by simpa using ·)
          · rintro rfl
            exact ⟨_, .octal hm hds⟩
        · split at h
          · have h := Option.some.inj h
            cases k with
            | number =>
              obtain ⟨h1, i, f, e, x, rfl, he, hf, hi⟩ := lexDecimal_number h
              exact ⟨h1, fun _ v hv => number_sound he hf hi hv, fun h => by cases h⟩
            | bigint =>
              obtain ⟨h1, i, rfl, hi, h0⟩ := lexDecimal_bigint h
              refine ⟨h1, fun h => (by cases h), fun _ => ?_⟩
              obtain ⟨c, u, rfl, hc⟩ := hi.head
              by_cases hz : c = '0'
              · have := h0 (by rw [hz]; rfl)
                rw [this]
                exact ⟨_, .zero⟩
              · exact ⟨_, .decimal hz hi⟩
            | invalid => exact absurd rfl hk
          · cases h

end Verif.Numeric
