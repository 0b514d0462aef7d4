import Verif.Numeric.Sound

/-!
# Numeric literals: every literal is read
-/

namespace Verif.Numeric

/-- No character that must not follow a literal is next. -/
def NotGlued (rest : List Char) : Prop := ∀ c, rest.head? = some c → ¬ Glued c

theorem glued_dec {c : Char} (h : isDec c = true) : Glued c := .inl h

theorem isHex_glued {c : Char} (h : isHex c = true) : Glued c := by
  simp only [isHex, Bool.or_eq_true, Bool.and_eq_true, decide_eq_true_eq] at h
  rcases h with (h | h) | h
  · exact .inl h
  · exact .inr (.inl ⟨h.1, Char.le_trans h.2 (by decide)⟩)
  · exact .inr (.inr (.inl ⟨h.1, Char.le_trans h.2 (by decide)⟩))

theorem NotGlued.stops {d : Char → Bool} (hd : ∀ c, d c = true → Glued c) {rest : List Char}
    (h : NotGlued rest) : Stops d rest := by
  intro c hc
  refine ⟨?_, ?_⟩
  · cases hdc : d c with
    | false => rfl
    | true => exact absurd (hd c hdc) (h c hc)
  · rintro rfl
    exact h _ hc (.inr (.inr (.inr rfl)))

theorem NotGlued.head_ne {rest : List Char} (h : NotGlued rest) {c : Char} (hg : Glued c) :
    rest.head? ≠ some c := fun hc => h c hc hg

theorem glued_n : Glued 'n' := .inr (.inl (by decide))
theorem glued_e : Glued 'e' := .inr (.inl (by decide))
theorem glued_E : Glued 'E' := .inr (.inr (.inl (by decide)))

theorem isPrefixLetter_glued {c : Char} (h : isPrefixLetter c = true) : Glued c := by
  simp only [isPrefixLetter, Bool.or_eq_true, beq_iff_eq] at h
  rcases h with ((((rfl | rfl) | rfl) | rfl) | rfl) | rfl
  · exact .inr (.inl (by decide))
  · exact .inr (.inr (.inl (by decide)))
  · exact .inr (.inl (by decide))
  · exact .inr (.inr (.inl (by decide)))
  · exact .inr (.inl (by decide))
  · exact .inr (.inr (.inl (by decide)))

/-! ## Bases -/

theorem lexSuffix_number {rest : List Char} (h : NotGlued rest) :
    lexSuffix rest = (false, [], rest) := by
  unfold lexSuffix
  split
  · exact absurd rfl (h.head_ne glued_n)
  · rfl

theorem stops_n {d : Char → Bool} (hn : d 'n' = false) (rest : List Char) :
    Stops d ('n' :: rest) := by
  intro c hc
  obtain rfl : 'n' = c := by simpa using hc
  exact ⟨hn, by decide⟩

theorem lexRadix_number {d : Char → Bool} (hd : d '_' = false) (hg : ∀ c, d c = true → Glued c)
    {p s rest : List Char} (hs : Digits d s) (hr : NotGlued rest) :
    lexRadix d p (s ++ rest) = (.number, p ++ s, rest) := by
  unfold lexRadix
  simp [scan_digits hd hs (hr.stops hg), scan_stop (hr.stops fun c => glued_dec),
    lexSuffix_number hr]

theorem lexRadix_bigint {d : Char → Bool} (hd : d '_' = false) (hn : d 'n' = false)
    {p s rest : List Char} (hs : Digits d s) :
    lexRadix d p (s ++ 'n' :: rest) = (.bigint, p ++ s ++ ['n'], rest) := by
  unfold lexRadix
  simp [scan_digits hd hs (stops_n hn rest),
    scan_stop (stops_n (d := isDec) (by decide) rest), lexSuffix]

theorem lexHex_number {p s rest : List Char} (hs : Digits isHex s) (hr : NotGlued rest) :
    lexHex p (s ++ rest) = (.number, p ++ s, rest) := by
  unfold lexHex
  simp [scan_digits isHex_us hs (hr.stops fun c => isHex_glued), lexSuffix_number hr]

theorem lexHex_bigint {p s rest : List Char} (hs : Digits isHex s) :
    lexHex p (s ++ 'n' :: rest) = (.bigint, p ++ s ++ ['n'], rest) := by
  unfold lexHex
  simp [scan_digits isHex_us hs (stops_n (by decide) rest), lexSuffix]

/-! ## Parts of a decimal literal -/

theorem Exponent.stops {e rest : List Char} {x : ℤ} (he : Exponent e x) (hr : NotGlued rest) :
    Stops isDec (e ++ rest) := by
  cases e with
  | nil => exact hr.stops fun c => glued_dec
  | cons a t =>
    intro c hc
    obtain rfl : a = c := by simpa using hc
    rcases he.head a rfl with rfl | rfl <;> decide

theorem lexExponent_exp {e rest : List Char} {x : ℤ} (he : Exponent e x) (hr : NotGlued rest) :
    lexExponent (e ++ rest) = (e, rest, true) := by
  have hst : Stops isDec rest := hr.stops fun c => glued_dec
  cases he with
  | none =>
    cases rest with
    | nil => rfl
    | cons c cs =>
      have h1 : c ≠ 'e' := by
        rintro rfl
        exact hr.head_ne glued_e rfl
      have h2 : c ≠ 'E' := by
        rintro rfl
        exact hr.head_ne glued_E rfl
      simp [lexExponent, h1, h2]
  | @unsigned m s hm hs =>
    obtain ⟨c, t, rfl, hc⟩ := hs.head
    have n1 : c ≠ '+' := isDec_ne hc (by decide)
    have n2 : c ≠ '-' := isDec_ne hc (by decide)
    have := scan_digits isDec_us hs hst
    rw [List.cons_append] at this
    rcases hm with rfl | rfl <;> simp [lexExponent, n1, n2, this]
  | @plus m s hm hs =>
    have := scan_digits isDec_us hs hst
    rcases hm with rfl | rfl <;> simp [lexExponent, this]
  | @minus m s hm hs =>
    have := scan_digits isDec_us hs hst
    rcases hm with rfl | rfl <;> simp [lexExponent, this]

theorem lexInteger_digits {i t : List Char} (hi : Digits isDec i) (ht : Stops isDec t) :
    lexInteger (i ++ t) = ⟨true, true, i, t⟩ := by
  obtain ⟨c, u, hcu, hc⟩ := hi.head
  have hne : ((i ++ t).head? != some '.') = true := by
    rw [hcu]
    simpa using isDec_ne hc (by decide)
  unfold lexInteger
  rw [if_pos hne, scan_digits isDec_us hi ht]
  rfl

theorem head_dec {i t : List Char} (hi : Digits isDec i) : ((i ++ t).head? != some '.') = true := by
  obtain ⟨c, u, rfl, hc⟩ := hi.head
  simpa using isDec_ne hc (by decide)

/-- A number token, given what its fraction is read as. -/
theorem lexDecimal_parts {i t f rest e : List Char} {x : ℤ} (hi : Digits isDec i)
    (ht : Stops isDec t) (hn : t.head? ≠ some 'n')
    (hf : lexFraction true (lexLegacyOctal i) t = (f, e ++ rest, true)) (he : Exponent e x)
    (hr : NotGlued rest) : lexDecimal (i ++ t) = (.number, i ++ f ++ e, rest) := by
  unfold lexDecimal
  rw [lexInteger_digits hi ht]
  have : (t.head? == some 'n' && (i ++ t).head? != some '.') = false := by simp [hn]
  simp only [this, Bool.false_eq_true, if_false, Bool.true_and, hf, lexExponent_exp he hr]
  rfl

theorem lexDecimal_big {i rest : List Char} (hi : Digits isDec i)
    (h0 : i.head? = some '0' → i = ['0']) :
    lexDecimal (i ++ 'n' :: rest) = (.bigint, i ++ ['n'], rest) := by
  unfold lexDecimal
  rw [lexInteger_digits hi (stops_n (by decide) rest)]
  have hbad : (decide (1 < i.length) && (i ++ 'n' :: rest).head? == some '0') = false := by
    cases hb : (decide (1 < i.length) && (i ++ 'n' :: rest).head? == some '0') with
    | false => rfl
    | true =>
      simp only [Bool.and_eq_true, decide_eq_true_eq, beq_iff_eq] at hb
      have : i = ['0'] := h0 (by
        obtain ⟨c, u, rfl, _⟩ := hi.head
        simpa using hb.2)
      rw [this] at hb
      exact absurd hb.1 (by decide)
  have hcond : (('n' :: rest).head? == some 'n' && (i ++ 'n' :: rest).head? != some '.') = true := by
    rw [head_dec hi]
    rfl
  simp only [hcond, if_true, hbad, Bool.not_false, Bool.and_self]
  rfl

/-! ## The choice of the function -/

theorem lexNumeric_decimal {c : Char} {cs : List Char} (hc : isDec c = true)
    (h : c = '0' → ∀ m, cs.head? = some m → isPrefixLetter m = false) :
    lexNumeric (c :: cs) = some (lexDecimal (c :: cs)) := by
  have key : ∀ x y, isPrefixLetter x = true → isPrefixLetter y = true →
      (c == '0' && (cs.head? == some x || cs.head? == some y)) = false := by
    intro x y hx hy
    cases hb : (c == '0' && (cs.head? == some x || cs.head? == some y)) with
    | false => rfl
    | true =>
      simp only [Bool.and_eq_true, Bool.or_eq_true, beq_iff_eq] at hb
      rcases hb.2 with hm | hm
      · rw [h hb.1 _ hm] at hx; cases hx
      · rw [h hb.1 _ hm] at hy; cases hy
  unfold lexNumeric
  simp only [key 'b' 'B' rfl rfl, key 'x' 'X' rfl rfl, key 'o' 'O' rfl rfl, Bool.false_eq_true,
    if_false, hc, Bool.true_or, if_true]

theorem lexNumeric_point {c : Char} {cs : List Char} (hc : isDec c = true) :
    lexNumeric ('.' :: c :: cs) = some (lexDecimal ('.' :: c :: cs)) := by
  unfold lexNumeric
  simp [hc]

theorem lexNumeric_digits {i t : List Char} (hi : Digits isDec i)
    (h : ∀ m, t.head? = some m → isPrefixLetter m = false) :
    lexNumeric (i ++ t) = some (lexDecimal (i ++ t)) := by
  obtain ⟨c, u, rfl, hc⟩ := hi.head
  refine lexNumeric_decimal hc fun _ m hm => ?_
  cases u with
  | nil => exact h m hm
  | cons a b =>
    obtain rfl : a = m := by simpa using hm
    rcases hi.chars a (by simp) with ha | rfl
    · exact isDec_not_prefix ha
    · decide

theorem lexNumeric_binary {m : Char} {s : List Char} (hm : m = 'b' ∨ m = 'B') :
    lexNumeric ('0' :: m :: s) = some (lexRadix isBin ['0', m] s) := by
  rcases hm with rfl | rfl <;> rfl

theorem lexNumeric_hex {m : Char} {s : List Char} (hm : m = 'x' ∨ m = 'X') :
    lexNumeric ('0' :: m :: s) = some (lexHex ['0', m] s) := by
  rcases hm with rfl | rfl <;> rfl

theorem lexNumeric_octal {m : Char} {s : List Char} (hm : m = 'o' ∨ m = 'O') :
    lexNumeric ('0' :: m :: s) = some (lexRadix isOct ['0', m] s) := by
  rcases hm with rfl | rfl <;> rfl

/-! ## Numbers -/

theorem DecimalInteger.digits {i : List Char} (h : DecimalInteger i) : Digits isDec i := by
  cases h with
  | zero => exact .one (by decide)
  | nonZero _ hs => exact hs
  | nonOctal hs _ =>
    refine .of_all (by simp) ?_
    intro c hc
    rcases List.mem_cons.1 hc with rfl | hc
    · decide
    · exact hs c hc

theorem DecimalInteger.not_legacy {i : List Char} (h : DecimalInteger i) :
    lexLegacyOctal i = false := by
  cases h with
  | zero => decide
  | nonZero hc _ => simp [lexLegacyOctal, hc]
  | @nonOctal s hs he =>
    obtain ⟨c, hc, h89⟩ := he
    have : (List.filter (fun x => x != '_') ('0' :: s)).all isOct = false := by
      rw [List.all_eq_false]
      refine ⟨c, ?_, ?_⟩
      · rw [List.mem_filter]
        refine ⟨by simp [hc], ?_⟩
        rcases h89 with rfl | rfl <;> decide
      · rcases h89 with rfl | rfl <;> decide
    unfold lexLegacyOctal
    rw [this, Bool.and_false]

theorem lexFraction_none {a b : Bool} {s : List Char} (h : s.head? ≠ some '.') :
    lexFraction a b s = ([], s, true) := by
  unfold lexFraction
  split
  · exact absurd rfl h
  · rfl

theorem tail_head_ne {e rest : List Char} {x : ℤ} (he : Exponent e x) (hr : NotGlued rest)
    {c : Char} (hc : Glued c) (h1 : c ≠ 'e') (h2 : c ≠ 'E') : (e ++ rest).head? ≠ some c := by
  cases e with
  | nil => exact hr.head_ne hc
  | cons a t =>
    intro h
    obtain rfl : a = c := by simpa using h
    rcases he.head a rfl with h | h
    · exact h1 h
    · exact h2 h

/-- Every literal is a token of its own, unless it is a legacy octal literal before a fraction. -/
theorem lexNumeric_num {p rest : List Char} {v : ℚ} (h : NumLit p v) (hr : NotGlued rest)
    (hl : ∀ q, IsLiteral q → q <+: p ++ rest → q.length ≤ p.length) :
    lexNumeric (p ++ rest) = some (.number, p, rest) ∨
      LegacyOctal p ∧ ∃ c t, rest = '.' :: c :: t ∧ isDec c = true := by
  have noPre : ∀ {e : List Char} {x : ℤ}, Exponent e x → ∀ m, (e ++ rest).head? = some m →
      isPrefixLetter m = false := by
    intro e x he m hm
    cases hp : isPrefixLetter m with
    | false => rfl
    | true =>
      refine absurd hm (tail_head_ne he hr (isPrefixLetter_glued hp) ?_ ?_)
      · rintro rfl; exact absurd hp (by decide)
      · rintro rfl; exact absurd hp (by decide)
  cases h with
  | @binary m s hm hs =>
    left
    have := lexRadix_number (p := ['0', m]) isBin_us (fun c h => glued_dec (isBin_isDec h)) hs hr
    rw [List.cons_append, List.cons_append, lexNumeric_binary hm, this]
    rfl
  | @octal m s hm hs =>
    left
    have := lexRadix_number (p := ['0', m]) isOct_us (fun c h => glued_dec (isOct_isDec h)) hs hr
    rw [List.cons_append, List.cons_append, lexNumeric_octal hm, this]
    rfl
  | @hex m s hm hs =>
    left
    have := lexHex_number (p := ['0', m]) hs hr
    rw [List.cons_append, List.cons_append, lexNumeric_hex hm, this]
    rfl
  | @legacyOctal s hn hs =>
    have hd : Digits isDec ('0' :: s) := .of_all (by simp) (by
      intro c hc
      rcases List.mem_cons.1 hc with rfl | hc
      · decide
      · exact isOct_isDec (hs c hc))
    by_cases hx : ∃ c t, rest = '.' :: c :: t ∧ isDec c = true
    · exact .inr ⟨⟨s, rfl, hn, hs⟩, hx⟩
    · left
      rw [lexNumeric_digits hd (by simpa using noPre .none), lexDecimal_parts (f := []) (e := []) hd
        (hr.stops fun c => glued_dec) (hr.head_ne glued_n) ?_ .none hr]
      · simp
      · by_cases hp : rest.head? = some '.'
        · obtain ⟨t, rfl⟩ : ∃ t, rest = '.' :: t := by
            cases rest with
            | nil => cases hp
            | cons a t => exact ⟨t, by simpa using hp⟩
          have hlo : lexLegacyOctal ('0' :: s) = true := by
            have h1 : 1 < ('0' :: s).length := by
              cases s with
              | nil => exact absurd rfl hn
              | cons => simp
            have h2 : (('0' :: s).filter (· != '_')).all isOct = true := by
              rw [List.all_eq_true]
              intro c hc
              rcases List.mem_cons.1 (List.mem_filter.1 hc).1 with rfl | hc
              · decide
              · exact hs c hc
            unfold lexLegacyOctal
            rw [h2, decide_eq_true h1]
            rfl
          have hnd : t.head?.any isDec = false := by
            cases t with
            | nil => rfl
            | cons c u =>
              cases hc : isDec c with
              | false => simpa using hc
              | true => exact absurd ⟨c, u, rfl, hc⟩ hx
          simp [lexFraction, hlo, hnd]
        · exact lexFraction_none hp
  | @integer i e x hi he =>
    left
    have hp : (e ++ rest).head? ≠ some '.' := by
      intro hp
      cases e with
      | nil =>
        obtain ⟨t, rfl⟩ : ∃ t, rest = '.' :: t := by
          cases rest with
          | nil => cases hp
          | cons a t => exact ⟨t, by simpa using hp⟩
        have := hl (i ++ '.' :: [] ++ []) (.inl ⟨_, .point hi (.inl rfl) .none⟩)
          ⟨t, by simp⟩
        simp at this
      | cons a t =>
        obtain rfl : a = '.' := by simpa using hp
        rcases he.head '.' rfl with h | h <;> exact absurd h (by decide)
    rw [List.append_assoc, lexNumeric_digits hi.digits (noPre he),
      lexDecimal_parts (f := []) hi.digits (he.stops hr)
        (tail_head_ne he hr glued_n (by decide) (by decide)) ?_ he hr]
    · simp
    · exact lexFraction_none hp
  | @point i f e x hi hf he =>
    left
    have hst : Stops isDec ('.' :: (f ++ (e ++ rest))) := by
      intro c hc
      obtain rfl : '.' = c := by simpa using hc
      decide
    have hsc : (scan isDec (f ++ (e ++ rest))) = ⟨decide (f ≠ []), true, f, e ++ rest⟩ := by
      rcases hf with rfl | hf
      · simpa using scan_stop (he.stops hr)
      · simpa [hf.ne_nil] using scan_digits isDec_us hf (he.stops hr)
    have hassoc : i ++ '.' :: f ++ e ++ rest = i ++ '.' :: (f ++ (e ++ rest)) := by simp
    rw [hassoc, lexNumeric_digits hi.digits (by
        intro m hm
        obtain rfl : '.' = m := by simpa using hm
        decide),
      lexDecimal_parts (f := '.' :: f) hi.digits hst (by simp) ?_ he hr]
    simp [lexFraction, hi.not_legacy, hsc]
  | @fraction f e x hf he =>
    left
    have hsc := scan_digits isDec_us hf (he.stops hr)
    obtain ⟨c, t, hct, hc⟩ := hf.head
    have hassoc : '.' :: f ++ e ++ rest = '.' :: (f ++ (e ++ rest)) := by simp
    have h1 : lexNumeric ('.' :: (f ++ (e ++ rest))) = some (lexDecimal ('.' :: (f ++ (e ++ rest)))) := by
      rw [hct]
      exact lexNumeric_point hc
    rw [hassoc, h1]
    unfold lexDecimal
    simp [lexInteger, lexFraction, hsc, lexExponent_exp he hr]

/-- Every BigInt literal is a token. -/
theorem lexNumeric_big {p : List Char} {n : Nat} (h : BigLit p n) (rest : List Char) :
    lexNumeric (p ++ rest) = some (.bigint, p, rest) := by
  have hnp : ∀ m, ('n' :: rest).head? = some m → isPrefixLetter m = false := by
    intro m hm
    obtain rfl : 'n' = m := by simpa using hm
    decide
  cases h with
  | zero =>
    have hd : Digits isDec ['0'] := .one (by decide)
    rw [show ['0', 'n'] ++ rest = ['0'] ++ 'n' :: rest from rfl, lexNumeric_digits hd hnp,
      lexDecimal_big hd (fun _ => rfl)]
    rfl
  | @decimal c s hc hs =>
    have : c :: s ++ ['n'] ++ rest = (c :: s) ++ 'n' :: rest := by simp
    rw [this, lexNumeric_digits hs hnp, lexDecimal_big hs (fun h => absurd (by simpa using h) hc)]
  | @binary m s hm hs =>
    have : '0' :: m :: s ++ ['n'] ++ rest = '0' :: m :: (s ++ 'n' :: rest) := by simp
    rw [this, lexNumeric_binary hm, lexRadix_bigint isBin_us (by decide) hs]
    rfl
  | @octal m s hm hs =>
    have : '0' :: m :: s ++ ['n'] ++ rest = '0' :: m :: (s ++ 'n' :: rest) := by simp
    rw [this, lexNumeric_octal hm, lexRadix_bigint isOct_us (by decide) hs]
    rfl
  | @hex m s hm hs =>
    have : '0' :: m :: s ++ ['n'] ++ rest = '0' :: m :: (s ++ 'n' :: rest) := by simp
    rw [this, lexNumeric_hex hm, lexHex_bigint hs]
    rfl

/-! ## Strict mode -/

/-- What the parser tests in strict mode code. -/
def oldStyle (raw : List Char) : Bool := isLegacyOctalLiteral raw || isLeadingZeroDecimalLiteral raw

theorem oldStyle_head {raw : List Char} (h : raw.head? ≠ some '0') : oldStyle raw = false := by
  simp [oldStyle, isLegacyOctalLiteral, isLeadingZeroDecimalLiteral, h]

theorem oldStyle_prefix {m : Char} {s : List Char} (hm : isPrefixLetter m = true) :
    oldStyle ('0' :: m :: s) = false := by
  simp only [isPrefixLetter, Bool.or_eq_true, beq_iff_eq] at hm
  have h1 : isOct m = false := by
    rcases hm with ((((rfl | rfl) | rfl) | rfl) | rfl) | rfl <;> decide
  have h2 : isLegacyOctalLiteral ('0' :: m :: s) = false := by
    unfold isLegacyOctalLiteral
    split
    · rfl
    · split
      · rfl
      · split
        · rfl
        · simp [h1]
  have h3 : isLeadingZeroDecimalLiteral ('0' :: m :: s) = false := by
    rcases hm with ((((rfl | rfl) | rfl) | rfl) | rfl) | rfl <;>
      simp [isLeadingZeroDecimalLiteral]
  simp [oldStyle, h2, h3]

theorem oldStyle_zero {t : List Char} (ht : TailStart t) : oldStyle ('0' :: t) = false := by
  cases t with
  | nil => decide
  | cons c u =>
    have hc := ht c rfl
    rcases hc with rfl | rfl | rfl <;>
      simp [oldStyle, isLegacyOctalLiteral, isLeadingZeroDecimalLiteral, leadingZeroLoop]

theorem leadingZeroLoop_spec {t : List Char} (ht : TailStart t) : ∀ {s : List Char} (a b : Bool),
    (∀ c ∈ s, isDec c = true) → leadingZeroLoop a b (s ++ t) =
      ((a || !s.isEmpty) && (b || s.any fun c => c == '8' || c == '9'))
  | [], a, b, _ => by
    cases t with
    | nil => simp [leadingZeroLoop]
    | cons c u => rcases ht c rfl with rfl | rfl | rfl <;> simp [leadingZeroLoop]
  | c :: s, a, b, hs => by
    have hc := hs c (by simp)
    obtain ⟨n1, n2, n3⟩ := isDec_no_tail hc
    have n4 : c ≠ '_' := isDec_ne hc isDec_us
    rw [List.cons_append, leadingZeroLoop]
    have hs' : ∀ c ∈ s, isDec c = true := fun c h => hs c (by simp [h])
    rcases isDec_cases hc with ho | h89
    · have h8 : c ≠ '8' := by rintro rfl; exact absurd ho (by decide)
      have h9 : c ≠ '9' := by rintro rfl; exact absurd ho (by decide)
      rw [if_neg (by simp [n1, n2, n3]), if_neg (by simp [n4]), if_pos ho,
        leadingZeroLoop_spec ht true b hs']
      rw [List.any_cons]
      simp [beq_eq_false_iff_ne.2 h8, beq_eq_false_iff_ne.2 h9]
    · have ho : isOct c = false := by rcases h89 with rfl | rfl <;> decide
      rw [if_neg (by simp [n1, n2, n3]), if_neg (by simp [n4]), if_neg (by simp [ho]),
        if_pos (by simpa using h89), leadingZeroLoop_spec ht true true hs']
      rcases h89 with rfl | rfl <;> simp

theorem oldStyle_nonOctal {s t : List Char} (hs : ∀ c ∈ s, isDec c = true)
    (he : ∃ c ∈ s, c = '8' ∨ c = '9') (ht : TailStart t) : oldStyle ('0' :: s ++ t) = true := by
  obtain ⟨c, hc, h89⟩ := he
  have hsn : s ≠ [] := List.ne_nil_of_mem hc
  have hloop := leadingZeroLoop_spec ht (s := s) false false hs
  have hany : s.any (fun c => c == '8' || c == '9') = true :=
    List.any_eq_true.2 ⟨c, hc, by simpa using h89⟩
  rw [hany] at hloop
  have hloop : leadingZeroLoop false false (s ++ t) = true := by
    rw [hloop]; simp [hsn]
  obtain ⟨a, b, rfl⟩ := List.exists_cons_of_ne_nil hsn
  have hp := isDec_not_prefix (hs a (by simp))
  have : isLeadingZeroDecimalLiteral ('0' :: a :: b ++ t) = true := by
    unfold isLeadingZeroDecimalLiteral
    rw [if_neg (by simp)]
    split
    all_goals first
      | exact hloop
      | (rename_i heq
         have h := (List.cons.inj (List.cons.inj heq).2).1
         rw [h] at hp
         exact absurd hp (by decide))
  simp only [oldStyle, this, Bool.or_true]

theorem oldStyle_legacy {s : List Char} (hn : s ≠ []) (hs : ∀ c ∈ s, isOct c = true) :
    oldStyle ('0' :: s) = true := by
  have h1 : ('0' :: s).any (fun c => c == '.' || c == 'e' || c == 'E') = false := by
    rw [List.any_eq_false]
    intro c hc h
    rcases List.mem_cons.1 hc with rfl | hc
    · exact absurd h (by decide)
    · obtain ⟨a, b, d⟩ := isDec_no_tail (isOct_isDec (hs c hc))
      simp [a, b, d] at h
  have h2 : ('0' :: s).contains '_' = false := by
    simp only [List.contains_eq_mem, decide_eq_false_iff_not]
    intro h
    rcases List.mem_cons.1 h with h | h
    · exact absurd h (by decide)
    · exact absurd (hs _ h) (by decide)
  have h3 : ¬ ('0' :: s).length ≤ 1 := by
    cases s with
    | nil => exact absurd rfl hn
    | cons => simp
  have h4 : s.all isOct = true := List.all_eq_true.2 hs
  have : isLegacyOctalLiteral ('0' :: s) = true := by
    unfold isLegacyOctalLiteral
    rw [if_neg (by simpa using h3), if_neg (by simp only [h1]; decide), if_neg (by simp only [h2]; decide)]
    simpa using h4
  simp only [oldStyle, this, Bool.true_or]

/-- The test for strict mode code finds exactly the literals that are forbidden there. -/
theorem oldStyle_iff {p : List Char} {v : ℚ} (h : NumLit p v) : oldStyle p = true ↔ Legacy p := by
  have pre : ∀ {m : Char} {s : List Char}, isPrefixLetter m = true →
      (oldStyle ('0' :: m :: s) = true ↔ Legacy ('0' :: m :: s)) := by
    intro m s hm
    rw [oldStyle_prefix hm]
    refine ⟨fun h => (by cases h), ?_⟩
    rintro ⟨c, t, he, hc⟩
    have := (List.cons.inj (List.cons.inj he).2).1
    rw [this] at hm
    rw [isDec_not_prefix hc] at hm
    cases hm
  have dec : ∀ {i t : List Char}, DecimalInteger i → TailStart t →
      (oldStyle (i ++ t) = true ↔ Legacy (i ++ t)) := by
    intro i t hi ht
    cases hi with
    | zero =>
      rw [show ['0'] ++ t = '0' :: t from rfl, oldStyle_zero ht]
      refine ⟨fun h => (by cases h), ?_⟩
      rintro ⟨c, u, he, hc⟩
      have : t = c :: u := (List.cons.inj he).2
      rcases ht c (by rw [this]; rfl) with rfl | rfl | rfl <;> exact absurd hc (by decide)
    | @nonZero c s hc hs =>
      rw [oldStyle_head (by simpa using hc)]
      refine ⟨fun h => (by cases h), ?_⟩
      rintro ⟨a, u, he, _⟩
      exact absurd (List.cons.inj he).1 hc
    | @nonOctal s hs he =>
      refine ⟨fun _ => ?_, fun _ => oldStyle_nonOctal hs he ht⟩
      obtain ⟨c, hc, _⟩ := he
      obtain ⟨a, b, rfl⟩ := List.exists_cons_of_ne_nil (List.ne_nil_of_mem hc)
      exact ⟨a, b ++ t, rfl, hs a (by simp)⟩
  cases h with
  | binary hm _ => exact pre (by rcases hm with rfl | rfl <;> decide)
  | octal hm _ => exact pre (by rcases hm with rfl | rfl <;> decide)
  | hex hm _ => exact pre (by rcases hm with rfl | rfl <;> decide)
  | @legacyOctal s hn hs =>
    refine ⟨fun _ => ?_, fun _ => oldStyle_legacy hn hs⟩
    obtain ⟨a, b, rfl⟩ := List.exists_cons_of_ne_nil hn
    exact ⟨a, b, rfl, isOct_isDec (hs a (by simp))⟩
  | integer hi he => exact dec hi (.exp he)
  | @point i f e x hi hf he =>
    rw [List.append_assoc, List.cons_append]
    exact dec hi (.point _)
  | fraction hf he =>
    rw [oldStyle_head (by simp)]
    refine ⟨fun h => (by cases h), ?_⟩
    rintro ⟨a, u, hh, _⟩
    exact absurd (List.cons.inj hh).1 (by decide)

end Verif.Numeric
