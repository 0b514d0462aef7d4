import Verif.Numeric.Lemmas

/-!
# Numeric literals: `from_literal` computes the mathematical value
-/

namespace Verif.Numeric

theorem Exponent.bare {e : List Char} {x : ℤ} (h : Exponent e x) : BareExp (bare e) x := by
  have em : ∀ {m : Char}, (m = 'e' ∨ m = 'E') → m ≠ '_' := by
    rintro m (rfl | rfl) <;> decide
  cases h with
  | none => exact .none
  | unsigned hm hs =>
    rw [bare_cons (em hm), ← natOf_bare]
    exact .unsigned hm (hs.bare_ne_nil isDec_us) hs.bare_all
  | plus hm hs =>
    rw [bare_cons (em hm), bare_cons (by decide), ← natOf_bare]
    exact .plus hm (hs.bare_ne_nil isDec_us) hs.bare_all
  | minus hm hs =>
    rw [bare_cons (em hm), bare_cons (by decide), ← natOf_bare]
    exact .minus hm (hs.bare_ne_nil isDec_us) hs.bare_all

theorem BareExp.no_point {e : List Char} {x : ℤ} (h : BareExp e x) : ∀ c ∈ e, c ≠ '.' := by
  have em : ∀ {m : Char}, (m = 'e' ∨ m = 'E') → m ≠ '.' := by
    rintro m (rfl | rfl) <;> decide
  have ds : ∀ {s : List Char}, (∀ c ∈ s, isDec c = true) → ∀ c ∈ s, c ≠ '.' :=
    fun hs c hc => isDec_ne (hs c hc) (by decide)
  cases h with
  | none => simp
  | unsigned hm _ hs => simpa [em hm] using ds hs
  | plus hm _ hs => simpa [em hm] using ds hs
  | minus hm _ hs => simpa [em hm] using ds hs

theorem Exponent.head {e : List Char} {x : ℤ} (h : Exponent e x) :
    ∀ c, e.head? = some c → c = 'e' ∨ c = 'E' := by
  cases h <;> simp_all

theorem last_ne {s : List Char} (h : ∀ c ∈ s, c ≠ '.') : (s.getLast? == some '.') = false := by
  simp only [beq_eq_false_iff_ne, ne_eq]
  intro hl
  exact h '.' (List.mem_of_getLast? hl) rfl

/-- A decimal literal without a point. -/
theorem decimalLiteral_int {i e : List Char} {x : ℤ} (hi : ∀ c ∈ bare i, isDec c = true)
    (hne : bare i ≠ []) (he : Exponent e x) :
    parseDecimalLiteral (i ++ e) = some ((mv 10 i : ℚ) * 10 ^ x) := by
  have hnp : ∀ c ∈ bare i ++ bare e, c ≠ '.' := by
    intro c hc
    rcases List.mem_append.1 hc with hc | hc
    · exact isDec_ne (hi c hc) (by decide)
    · exact he.bare.no_point c hc
  have hh : ((bare i ++ bare e).head? == some '.') = false := by
    simp only [beq_eq_false_iff_ne, ne_eq]
    intro h
    exact hnp '.' (List.mem_of_head? h) rfl
  unfold parseDecimalLiteral
  simp only [strip_eq, bare_append, hh, last_ne hnp, Bool.false_eq_true, if_false]
  rw [parseDecimal_int hi hne he.bare, natOf_bare]

/-- A decimal literal with a point. -/
theorem decimalLiteral_point {i f e : List Char} {x : ℤ} (hi : ∀ c ∈ bare i, isDec c = true)
    (hf : ∀ c ∈ bare f, isDec c = true) (hne : bare i ≠ [] ∨ bare f ≠ []) (he : Exponent e x) :
    parseDecimalLiteral (i ++ '.' :: f ++ e) =
      some ((mv 10 i + mvFraction f) * 10 ^ x) := by
  have hb : bare (i ++ '.' :: f ++ e) = bare i ++ '.' :: (bare f ++ bare e) := by
    rw [bare_append, bare_append, bare_cons (by decide)]
    simp
  have hpt : ∀ {g : List Char}, (∀ c ∈ g, isDec c = true) → ∀ c ∈ g, c ≠ '.' :=
    fun hg c hc => isDec_ne (hg c hc) (by decide)
  -- the zero before the point
  obtain ⟨j, hj, hjd, hjn, hjv⟩ : ∃ j, (if (bare i ++ '.' :: (bare f ++ bare e)).head? == some '.' then
      '0' :: (bare i ++ '.' :: (bare f ++ bare e)) else bare i ++ '.' :: (bare f ++ bare e)) =
        j ++ '.' :: (bare f ++ bare e) ∧ (∀ c ∈ j, isDec c = true) ∧ j ≠ [] ∧
        natOf 10 j = natOf 10 (bare i) := by
    cases hbi : bare i with
    | nil => exact ⟨['0'], by simp, by simp; decide, by simp, by decide⟩
    | cons c t =>
      refine ⟨c :: t, ?_, by rw [← hbi]; exact hi, by simp, rfl⟩
      have : c ≠ '.' := isDec_ne (hi c (by rw [hbi]; simp)) (by decide)
      simp [this]
  unfold parseDecimalLiteral
  simp only [strip_eq, hb, hj]
  by_cases hfe : bare f = [] ∧ bare e = []
  · obtain ⟨h1, h2⟩ := hfe
    have hx : x = 0 := by
      have := he.bare
      rw [h2] at this
      cases this
      rfl
    have : ((j ++ '.' :: (bare f ++ bare e)).getLast? == some '.') = true := by
      rw [h1, h2]; simp
    simp only [this, if_true]
    rw [h1, h2]
    have := parseDecimal_point (f := ['0']) hjd (by simp; decide) (.inl hjn) .none
    simp only [List.append_nil, List.nil_append, List.append_assoc, List.cons_append] at this ⊢
    have z : natOf 10 ['0'] = 0 := by decide
    have zf : mvFraction f = 0 := by
      unfold mvFraction
      rw [← natOf_bare, h1]
      simp [natOf]
    rw [this, hjv, natOf_bare, hx, zf, z]
    simp
  · have : ((j ++ '.' :: (bare f ++ bare e)).getLast? == some '.') = false := by
      have hne' : bare f ++ bare e ≠ [] := by
        intro h
        exact hfe (List.append_eq_nil_iff.1 h)
      rw [List.getLast?_append, List.getLast?_cons]
      have : (bare f ++ bare e).getLast? ≠ some '.' := by
        have := last_ne (s := bare f ++ bare e) (by
          intro c hc
          rcases List.mem_append.1 hc with hc | hc
          · exact hpt hf c hc
          · exact he.bare.no_point c hc)
        simpa using this
      obtain ⟨a, ha⟩ : ∃ a, (bare f ++ bare e).getLast? = some a := by
        cases h : (bare f ++ bare e).getLast? with
        | none => exact absurd (List.getLast?_eq_none_iff.1 h) hne'
        | some a => exact ⟨a, rfl⟩
      rw [ha] at this ⊢
      simpa using this
    simp only [this, Bool.false_eq_true, if_false]
    rw [parseDecimal_point hjd hf (.inl hjn) he.bare, hjv, natOf_bare, natOf_bare]
    rfl

/-- Digits in a base. -/
theorem integerLiteral {d : Char → Bool} (hd : d '_' = false) {radix : Nat} {s : List Char}
    (h : Digits d s) : parseIntegerLiteral d radix s = some (mv radix s : ℚ) := by
  have h1 := h.bare_ne_nil hd
  have h2 : (bare s).isEmpty = false := by simp [h1]
  have h3 : (bare s).all d = true := List.all_eq_true.2 h.bare_all
  unfold parseIntegerLiteral
  simp only [strip_eq, h2, Bool.false_eq_true, if_false, parseBytes, h3, Bool.not_true, Bool.or_self,
    Option.bind_some, natOf_bare]
  exact parseDecimal_decText _

/-! ## `from_literal` -/

/-- The letters that make a base prefix with a zero. -/
def isPrefixLetter (c : Char) : Bool :=
  c == 'b' || c == 'B' || c == 'o' || c == 'O' || c == 'x' || c == 'X'

/-- The last part of `fromLiteral`. -/
def fromRest (raw : List Char) : Option ℚ :=
  if raw.head? == some '0' && decide (1 < raw.length) then
    let int := intPart raw
    if int.contains '_' then none
    else if !(int.drop 1).all isDec then none
    else
      let sawDigit := !(int.drop 1).isEmpty
      let sawDecimal := (int.drop 1).any (fun c => c == '8' || c == '9')
      if sawDigit then
        if int.length != raw.length then
          if !sawDecimal then none else parseDecimalLiteral raw
        else if sawDecimal then parseDecimalLiteral raw
        else parseIntegerLiteral isOct 8 raw
      else parseDecimalLiteral raw
  else parseDecimalLiteral raw

theorem fromLiteral_rest {raw : List Char}
    (h : ∀ c t, raw = '0' :: c :: t → isPrefixLetter c = false) : fromLiteral raw = fromRest raw := by
  unfold fromLiteral
  split
  · exact absurd (h _ _ rfl) (by decide)
  · exact absurd (h _ _ rfl) (by decide)
  · exact absurd (h _ _ rfl) (by decide)
  · exact absurd (h _ _ rfl) (by decide)
  · exact absurd (h _ _ rfl) (by decide)
  · exact absurd (h _ _ rfl) (by decide)
  · rfl

theorem isDec_not_prefix {c : Char} (h : isDec c = true) : isPrefixLetter c = false := by
  cases hp : isPrefixLetter c with
  | false => rfl
  | true =>
    simp only [isPrefixLetter, Bool.or_eq_true, beq_iff_eq] at hp
    rcases hp with ((((rfl | rfl) | rfl) | rfl) | rfl) | rfl <;> exact absurd h (by decide)

/-- What comes after the integer part of a literal. -/
def TailStart (t : List Char) : Prop := ∀ c, t.head? = some c → c = '.' ∨ c = 'e' ∨ c = 'E'

theorem intPart_append {s t : List Char}
    (hs : ∀ c ∈ s, c ≠ '.' ∧ c ≠ 'e' ∧ c ≠ 'E') (ht : TailStart t) :
    intPart ('0' :: s ++ t) = '0' :: s := by
  have := (takeWhile_append (p := fun c => !(c == '.' || c == 'e' || c == 'E')) (s := s) (t := t)
    (by intro c hc; simp [hs c hc])
    (by intro c hc; rcases ht c hc with rfl | rfl | rfl <;> decide)).1
  simp only [intPart, List.cons_append, List.take_succ_cons, List.take_zero, List.drop_succ_cons,
    List.drop_zero, this, List.nil_append]

theorem isDec_no_tail {c : Char} (h : isDec c = true) : c ≠ '.' ∧ c ≠ 'e' ∧ c ≠ 'E' :=
  ⟨isDec_ne h (by decide), isDec_ne h (by decide), isDec_ne h (by decide)⟩

theorem tail_not_prefix {t : List Char} (ht : TailStart t) :
    ∀ c u, '0' :: t = '0' :: c :: u → isPrefixLetter c = false := by
  intro c u h
  rcases ht c (by rw [(List.cons.inj h).2]; rfl) with rfl | rfl | rfl <;> decide

theorem fromLiteral_decimal {i t : List Char} (hi : DecimalInteger i) (ht : TailStart t) :
    fromLiteral (i ++ t) = parseDecimalLiteral (i ++ t) := by
  cases hi with
  | zero =>
    rw [show ['0'] ++ t = '0' :: t from rfl, fromLiteral_rest (tail_not_prefix ht)]
    have : intPart ('0' :: t) = ['0'] := intPart_append (s := []) (by simp) ht
    unfold fromRest
    rw [this]
    split <;> simp
  | @nonZero c s hc hs =>
    rw [fromLiteral_rest (by
      intro x u h
      exact absurd (List.cons.inj h).1 hc)]
    unfold fromRest
    have : ((c :: s ++ t).head? == some '0') = false := by simp [hc]
    rw [this]
    simp
  | @nonOctal s hs he =>
    have hsn : s ≠ [] := by obtain ⟨c, hc, _⟩ := he; exact List.ne_nil_of_mem hc
    rw [fromLiteral_rest (by
      intro c u h
      obtain ⟨a, b, rfl⟩ := List.exists_cons_of_ne_nil hsn
      have h := (List.cons.inj (List.cons.inj h).2).1
      rw [← h]
      exact isDec_not_prefix (hs a (by simp)))]
    have h1 : intPart ('0' :: s ++ t) = '0' :: s :=
      intPart_append (fun c hc => isDec_no_tail (hs c hc)) ht
    have h2 : ('0' :: s).contains '_' = false := by
      simp only [List.contains_eq_mem, decide_eq_false_iff_not]
      intro h
      rcases List.mem_cons.1 h with h | h
      · exact absurd h (by decide)
      · exact isDec_ne (hs _ h) isDec_us rfl
    have h3 : s.all isDec = true := List.all_eq_true.2 hs
    have h4 : s.any (fun c => c == '8' || c == '9') = true := by
      obtain ⟨c, hc, h⟩ := he
      exact List.any_eq_true.2 ⟨c, hc, by rcases h with rfl | rfl <;> rfl⟩
    have h5 : s.isEmpty = false := by simp [hsn]
    unfold fromRest
    simp only [h1, h2, h3, h4, h5, List.drop_succ_cons, List.drop_zero, Bool.not_true,
      Bool.false_eq_true, if_false, Bool.not_false, if_true, ite_self]

theorem DecimalInteger.bare_all {i : List Char} (h : DecimalInteger i) :
    ∀ c ∈ bare i, isDec c = true := by
  cases h with
  | zero => intro c hc; rw [show bare ['0'] = ['0'] by decide] at hc
            rw [List.mem_singleton.1 hc]; decide
  | nonZero _ hs => exact hs.bare_all
  | @nonOctal s hs _ =>
    intro c hc
    rcases List.mem_cons.1 (List.mem_filter.1 hc).1 with rfl | h
    · decide
    · exact hs c h

theorem DecimalInteger.bare_ne_nil {i : List Char} (h : DecimalInteger i) : bare i ≠ [] := by
  cases h with
  | zero => decide
  | nonZero _ hs => exact hs.bare_ne_nil isDec_us
  | nonOctal hs _ => rw [bare_cons (by decide)]; simp

theorem TailStart.exp {e : List Char} {x : ℤ} (he : Exponent e x) : TailStart e :=
  fun c hc => .inr (he.head c hc)

theorem TailStart.point (s : List Char) : TailStart ('.' :: s) := by
  intro c hc
  left
  simpa using hc.symm

theorem fromLiteral_legacy {s : List Char} (hn : s ≠ []) (hs : ∀ c ∈ s, isOct c = true) :
    fromLiteral ('0' :: s) = some (mv 8 s : ℚ) := by
  have hd : ∀ c ∈ s, isDec c = true := fun c hc => isOct_isDec (hs c hc)
  have h1 : intPart ('0' :: s) = '0' :: s := by
    have := intPart_append (s := s) (t := []) (fun c hc => isDec_no_tail (hd c hc))
      (by intro c hc; simp at hc)
    simpa using this
  rw [fromLiteral_rest (by
    intro c u h
    obtain ⟨a, b, rfl⟩ := List.exists_cons_of_ne_nil hn
    have h := (List.cons.inj (List.cons.inj h).2).1
    rw [← h]
    exact isDec_not_prefix (hd a (by simp)))]
  have h2 : ('0' :: s).contains '_' = false := by
    simp only [List.contains_eq_mem, decide_eq_false_iff_not]
    intro h
    rcases List.mem_cons.1 h with h | h
    · exact absurd h (by decide)
    · exact isDec_ne (hd _ h) isDec_us rfl
  have h3 : s.all isDec = true := List.all_eq_true.2 hd
  have h4 : s.any (fun c => c == '8' || c == '9') = false := by
    rw [List.any_eq_false]
    intro c hc
    have := hs c hc
    intro h
    simp only [Bool.or_eq_true, beq_iff_eq] at h
    rcases h with rfl | rfl <;> exact absurd this (by decide)
  have h5 : s.isEmpty = false := by simp [hn]
  have h6 : 1 < ('0' :: s).length := by
    cases s with
    | nil => exact absurd rfl hn
    | cons => simp
  unfold fromRest
  simp only [h1, h2, h3, h4, h5, h6, List.head?_cons, List.drop_succ_cons, List.drop_zero,
    Bool.not_true, Bool.false_eq_true, if_false, Bool.not_false, if_true, beq_self_eq_true,
    decide_true, Bool.and_self, bne_self_eq_false]
  rw [integerLiteral isOct_us (Digits.of_all (by simp) (by
    intro c hc
    rcases List.mem_cons.1 hc with rfl | hc
    · decide
    · exact hs c hc))]
  congr 2
  rw [← natOf_bare, ← natOf_bare, bare_cons (by decide)]
  simp [natOf, show digitOf '0' = 0 by decide]

/-- `from_literal` gives the mathematical value of every literal. -/
theorem fromLiteral_num {s : List Char} {v : ℚ} (h : NumLit s v) : fromLiteral s = some v := by
  cases h with
  | binary hm hs => rcases hm with rfl | rfl <;> exact integerLiteral isBin_us hs
  | octal hm hs => rcases hm with rfl | rfl <;> exact integerLiteral isOct_us hs
  | hex hm hs => rcases hm with rfl | rfl <;> exact integerLiteral isHex_us hs
  | legacyOctal hn hs => exact fromLiteral_legacy hn hs
  | integer hi he =>
    rw [fromLiteral_decimal hi (.exp he), decimalLiteral_int hi.bare_all hi.bare_ne_nil he]
  | @point i f e x hi hf he =>
    have hfd : ∀ c ∈ bare f, isDec c = true := by
      rcases hf with rfl | hf
      · simp [Verif.Numeric.bare]
      · exact hf.bare_all
    have := fromLiteral_decimal hi (.point (f ++ e))
    rw [List.append_assoc, List.cons_append, this, ← List.cons_append, ← List.append_assoc,
      decimalLiteral_point hi.bare_all hfd (.inl hi.bare_ne_nil) he]
  | @fraction f e x hf he =>
    rw [fromLiteral_rest (by intro c u h; exact absurd (List.cons.inj h).1 (by decide))]
    have : fromRest ('.' :: f ++ e) = parseDecimalLiteral ('.' :: f ++ e) := by
      unfold fromRest
      simp
    have hp := decimalLiteral_point (i := []) (by simp [Verif.Numeric.bare]) hf.bare_all
      (.inr (hf.bare_ne_nil isDec_us)) he
    rw [this]
    simpa [show mv 10 [] = 0 from rfl] using hp

end Verif.Numeric
