import Verif.Lex.Spec

/-! # The lexer's functions on a text followed by another -/

namespace Verif.Lex

/-- The next character is no ASCII letter, digit or `_`. -/
def Stops (rest : Text) : Prop := headIs (fun c => c.isAlpha || c.isDigit || c = '_') rest = false

theorem wordEnd_append (U : Unicode) (cs rest : Text) (h : wordEnd U cs = some [])
    (hr : headIs (fun c => idPart U c || c = '\\') rest = false) : wordEnd U (cs ++ rest) = some rest := by
  induction cs with
  | nil =>
    cases rest with
    | nil => rfl
    | cons c r => simp_all [wordEnd, headIs]
  | cons c r ih =>
    simp only [wordEnd, List.cons_append] at h ⊢
    split at h
    · simp at h
    · rename_i h1
      rw [if_neg h1]
      split at h
      · rename_i h2; rw [if_pos h2]; exact ih h
      · simp at h

theorem digitsEnd_append (isD : Char → Bool) (a b p : Bool) (ts rest : Text)
    (hr : headIs (fun c => isD c || c = '_') rest = false) :
    digitsEnd isD a b p (ts ++ rest) =
      ((digitsEnd isD a b p ts).1, (digitsEnd isD a b p ts).2.1, (digitsEnd isD a b p ts).2.2 ++ rest) := by
  induction ts generalizing a b p with
  | nil =>
    cases rest with
    | nil => simp [digitsEnd]
    | cons c r => simp_all [digitsEnd, headIs]
  | cons c r ih =>
    have hh : headIs isD (r ++ rest) = headIs isD r := by
      cases r with
      | nil => cases rest <;> simp_all [headIs]
      | cons d q => rfl
    simp only [digitsEnd, List.cons_append]
    split
    · rw [hh, ih]
    · split
      · rw [ih]
      · rfl

theorem stops_digits {rest : Text} (hr : Stops rest) :
    headIs (fun c => Char.isDigit c || c = '_') rest = false := by
  cases rest with
  | nil => rfl
  | cons c r => simp_all [Stops, headIs]

theorem headIs_append (f : Char → Bool) (ts rest : Text) (h : ts ≠ [] ∨ headIs f rest = false) :
    headIs f (ts ++ rest) = headIs f ts := by
  cases ts with
  | nil => simp_all [headIs]
  | cons c r => rfl

theorem exponentEnd_append (v : Bool) (ts rest r : Text) (hr : Stops rest)
    (h : exponentEnd v ts = (true, r)) : exponentEnd v (ts ++ rest) = (true, r ++ rest) := by
  cases ts with
  | nil =>
    simp only [exponentEnd, Prod.mk.injEq] at h
    obtain ⟨rfl, rfl⟩ := h
    cases rest with
    | nil => rfl
    | cons c q =>
      have : ¬ (c = 'e' ∨ c = 'E') := by
        rintro (rfl | rfl) <;> simp [Stops, headIs] at hr <;> revert hr <;> decide
      simp [exponentEnd, this]
  | cons c q =>
    simp only [exponentEnd, List.cons_append] at h ⊢
    split at h
    · rename_i h1
      rw [if_pos h1]
      have hs : q ≠ [] := by
        rintro rfl
        simp [signEnd, digitsEnd] at h
      obtain ⟨s, q', rfl⟩ : ∃ s q', q = s :: q' := by
        cases q with
        | nil => simp at hs
        | cons s q' => exact ⟨s, q', rfl⟩
      have h2 : signEnd (s :: q' ++ rest) = signEnd (s :: q') ++ rest := by
        simp only [signEnd, List.cons_append]
        split <;> rfl
      rw [h2, digitsEnd_append _ _ _ _ _ _ (stops_digits hr)]
      simp only [Prod.mk.injEq] at h ⊢
      exact ⟨h.1, by rw [h.2]⟩
    · rename_i h1
      rw [if_neg h1]
      simp only [Prod.mk.injEq] at h
      obtain ⟨rfl, rfl⟩ := h
      rfl

theorem fractionEnd_append (l i v : Bool) (ts rest : Text) (hr : Stops rest)
    (hd : ts = [] → headIs (· = '.') rest = false) :
    fractionEnd l i v (ts ++ rest) = ((fractionEnd l i v ts).1, (fractionEnd l i v ts).2 ++ rest) := by
  cases ts with
  | nil =>
    cases rest with
    | nil => simp [fractionEnd]
    | cons c r =>
      have := hd rfl
      simp only [headIs, decide_eq_false_iff_not] at this
      simp only [List.nil_append, fractionEnd]
      split <;> simp_all
  | cons c q =>
    by_cases hc : c = '.'
    · subst hc
      have hh : headIs Char.isDigit (q ++ rest) = headIs Char.isDigit q := by
        apply headIs_append
        right
        cases rest with
        | nil => rfl
        | cons c r => simp_all [Stops, headIs]
      simp only [fractionEnd, List.cons_append, hh, digitsEnd_append _ _ _ _ _ _ (stops_digits hr)]
      split
      · split <;> simp
      · simp
    · have h1 : ∀ (x : Text), fractionEnd l i v (c :: x) = (v, c :: x) := by
        intro x
        rw [fractionEnd.eq_def]
        split
        · rename_i he; simp at he; exact absurd he.1 hc
        · rfl
      simp [h1]

theorem integerEnd_append (ts rest : Text) (hr : Stops rest) (hn : ts ≠ []) :
    integerEnd (ts ++ rest) = ((integerEnd ts).1, (integerEnd ts).2.1, (integerEnd ts).2.2 ++ rest) := by
  simp only [integerEnd, headIs_append _ ts rest (.inl hn), digitsEnd_append _ _ _ _ _ _ (stops_digits hr)]
  split <;> rfl

theorem digitsEnd_nil (isD : Char → Bool) (a b p : Bool) (ts : Text)
    (h : (digitsEnd isD a b p ts).2.2 = []) : ts.all (fun c => isD c || c = '_') = true := by
  induction ts generalizing a b p with
  | nil => rfl
  | cons c r ih =>
    simp only [digitsEnd] at h
    split at h
    · rename_i hc; rw [List.all_cons, ih _ _ _ h]; simp [hc]
    · split at h
      · rename_i hc; rw [List.all_cons, ih _ _ _ h]; simp [hc]
      · simp at h

theorem digitsEnd_suffix (isD : Char → Bool) (a b p : Bool) (ts : Text) :
    ∃ pre, ts = pre ++ (digitsEnd isD a b p ts).2.2 := by
  induction ts generalizing a b p with
  | nil => exact ⟨[], rfl⟩
  | cons c r ih =>
    simp only [digitsEnd]
    split
    · obtain ⟨pre, h⟩ := ih a (b && !p && a && headIs isD r) true
      exact ⟨c :: pre, by rw [List.cons_append, ← h]⟩
    · split
      · obtain ⟨pre, h⟩ := ih true b false
        exact ⟨c :: pre, by rw [List.cons_append, ← h]⟩
      · exact ⟨[], rfl⟩

theorem integerEnd_suffix (ts : Text) : ∃ pre, ts = pre ++ (integerEnd ts).2.2 := by
  simp only [integerEnd]
  split
  · exact ⟨[], rfl⟩
  · exact digitsEnd_suffix _ _ _ _ ts

theorem decimalEnd_append (ts rest : Text) (k : Kind) (hr : Stops rest)
    (hd : takesDot ts = true → headIs (· = '.') rest = false) (h : decimalEnd ts = some (k, [])) :
    decimalEnd (ts ++ rest) = some (k, rest) := by
  have hn : ts ≠ [] := by
    rintro rfl
    simp [decimalEnd, integerEnd, headIs, digitsEnd, fractionEnd, exponentEnd] at h
  obtain ⟨pre, hpre⟩ := integerEnd_suffix ts
  have hint : (ts ++ rest).take ((ts ++ rest).length - ((integerEnd ts).2.2 ++ rest).length) =
      ts.take (ts.length - (integerEnd ts).2.2.length) := by
    have hl : (integerEnd ts).2.2.length ≤ ts.length := by
      have := congrArg List.length hpre
      simp at this; omega
    rw [List.length_append, List.length_append, List.take_append_of_le_length (by omega)]
    congr 1
    omega
  have hnn : headIs (· = 'n') rest = false := by
    cases rest with
    | nil => rfl
    | cons c r =>
      simp only [headIs, decide_eq_false_iff_not]
      rintro rfl
      exact absurd hr (by simp only [Stops, headIs]; decide)
  simp only [decimalEnd, integerEnd_append ts rest hr hn, headIs_append _ ts rest (.inl hn), hint,
    headIs_append _ (integerEnd ts).2.2 rest (.inr hnn)] at h ⊢
  split at h
  · rename_i h1
    rw [if_pos h1]
    split at h
    · rename_i h2
      rw [if_pos h2]
      simp only [Option.some.injEq, Prod.mk.injEq] at h ⊢
      refine ⟨h.1, ?_⟩
      generalize (integerEnd ts).2.2 = r at h h1
      cases r with
      | nil => simp [headIs] at h1
      | cons c q =>
        have h2 := h.2
        simp only [List.drop_succ_cons, List.drop_zero] at h2
        simp [h2]
    · simp at h
  · rename_i h1
    rw [if_neg h1]
    have hdd : (integerEnd ts).2.2 = [] → headIs (· = '.') rest = false := by
      intro he
      apply hd
      simp only [integerEnd] at he
      split at he
      · exact absurd he hn
      · exact digitsEnd_nil _ _ _ _ _ he
    rw [fractionEnd_append _ _ _ _ _ hr hdd]
    generalize hf : fractionEnd _ _ _ (integerEnd ts).2.2 = f at h ⊢
    obtain ⟨v, r⟩ := f
    simp only at h ⊢
    generalize he : exponentEnd v r = e at h
    obtain ⟨v', r'⟩ := e
    simp only at h
    split at h
    · rename_i hv
      subst hv
      rw [exponentEnd_append v r rest r' hr he]
      simp only [Option.some.injEq, Prod.mk.injEq] at h
      simp [h.1, h.2]
    · simp at h

theorem radixOf_digits (ts : Text) (isD : Char → Bool) (h : radixOf ts = some isD) (c : Char)
    (hc : isD c = true) : (c.isAlpha || c.isDigit) = true := by
  have k1 : ∀ (c : Char), isBin c = true → (c.isAlpha || c.isDigit) = true := by
    intro c hc
    simp only [isBin, Bool.or_eq_true, decide_eq_true_eq] at hc
    rcases hc with rfl | rfl <;> decide
  have k2 : ∀ (c : Char), isOct c = true → (c.isAlpha || c.isDigit) = true := by
    intro c hc
    simp only [isOct, List.contains_iff_mem, List.mem_cons, List.not_mem_nil, or_false] at hc
    rcases hc with rfl | rfl | rfl | rfl | rfl | rfl | rfl | rfl <;> decide
  have k3 : ∀ (c : Char), isHex c = true → (c.isAlpha || c.isDigit) = true := by
    intro c hc
    simp only [isHex, Bool.or_eq_true, List.contains_iff_mem, List.mem_cons, List.not_mem_nil,
      or_false] at hc
    rcases hc with hc | rfl | rfl | rfl | rfl | rfl | rfl | rfl | rfl | rfl | rfl | rfl | rfl
    · rw [hc, Bool.or_true]
    all_goals decide
  unfold radixOf at h
  split at h
  · split at h
    · simp only [Option.some.injEq] at h
      exact k1 c (h ▸ hc)
    · split at h
      · simp only [Option.some.injEq] at h
        exact k2 c (h ▸ hc)
      · split at h
        · simp only [Option.some.injEq] at h
          exact k3 c (h ▸ hc)
        · simp at h
  · simp at h

theorem radixEnd_append (isD : Char → Bool) (hD : ∀ c, isD c = true → (c.isAlpha || c.isDigit) = true)
    (ts rest : Text) (k : Kind) (hr : Stops rest) (h : radixEnd isD ts = some (k, [])) :
    radixEnd isD (ts ++ rest) = some (k, rest) := by
  have h1 : headIs (fun c => isD c || c = '_') rest = false := by
    cases rest with
    | nil => rfl
    | cons c r =>
      simp only [Stops, headIs, Bool.or_eq_false_iff] at hr ⊢
      refine ⟨?_, hr.2⟩
      cases hh : isD c with
      | false => rfl
      | true =>
        have := hD c hh
        simp_all
  have hnn : headIs (· = 'n') rest = false := by
    cases rest with
    | nil => rfl
    | cons c r =>
      simp only [headIs, decide_eq_false_iff_not]
      rintro rfl
      exact absurd hr (by simp only [Stops, headIs]; decide)
  simp only [radixEnd, digitsEnd_append _ _ _ _ _ _ h1, digitsEnd_append _ _ _ _ _ _ (stops_digits hr),
    headIs_append _ _ rest (.inr hnn)] at h ⊢
  split at h
  · rename_i h2
    rw [if_pos (by simpa using h2)]
    split at h
    · rename_i h3
      rw [if_pos h3]
      generalize (digitsEnd isD false true false ts).2.2 = r at h h3
      cases r with
      | nil => simp [headIs] at h3
      | cons c q => simp_all
    · rename_i h3
      rw [if_neg h3]
      simp_all
  · simp at h

theorem radixOf_append (ts rest : Text) (hr : Stops rest) (hn : ts ≠ []) :
    radixOf (ts ++ rest) = radixOf ts := by
  cases ts with
  | nil => simp at hn
  | cons c q =>
    cases q with
    | cons d q => 
      by_cases hc : c = '0'
      · subst hc; rfl
      · rw [radixOf.eq_def, radixOf.eq_def]
        simp only [List.cons_append]
        split
        · rename_i he; simp at he; exact absurd he.1 hc
        · split
          · rename_i he; simp at he; exact absurd he.1 hc
          · rfl
    | nil =>
      cases rest with
      | nil => rfl
      | cons d r =>
        have hd : ¬ (d = 'b' ∨ d = 'B') ∧ ¬ (d = 'o' ∨ d = 'O') ∧ ¬ (d = 'x' ∨ d = 'X') := by
          refine ⟨?_, ?_, ?_⟩ <;> rintro (rfl | rfl) <;> simp [Stops, headIs] at hr <;> revert hr <;> decide
        rw [radixOf.eq_def, radixOf.eq_def]
        simp only [List.cons_append, List.nil_append]
        split
        · rename_i he
          simp only [List.cons.injEq] at he
          obtain ⟨_, rfl, _⟩ := he
          simp [hd]
        · rfl

theorem numberEnd_append (ts rest : Text) (k : Kind) (hr : Stops rest)
    (hd : takesDot ts = true → headIs (· = '.') rest = false) (h : numberEnd ts = some (k, [])) :
    numberEnd (ts ++ rest) = some (k, rest) := by
  have hn : ts ≠ [] := by
    rintro rfl
    simp [numberEnd, radixOf, decimalEnd, integerEnd, headIs, digitsEnd, fractionEnd, exponentEnd] at h
  simp only [numberEnd, radixOf_append ts rest hr hn] at h ⊢
  split at h
  · rename_i isD hi
    have h2 : 2 ≤ ts.length := by
      unfold radixOf at hi
      split at hi
      · simp
      · simp at hi
    rw [List.drop_append_of_le_length h2]
    exact radixEnd_append isD (fun c hc => radixOf_digits ts isD hi c hc) _ _ k hr h
  · exact decimalEnd_append ts rest k hr hd h

theorem stringEnd_append (q : Char) (e : Esc) (ts rest : Text) (h : stringEnd q e ts = some []) :
    stringEnd q e (ts ++ rest) = some rest := by
  induction ts generalizing e with
  | nil => cases e <;> simp [stringEnd] at h
  | cons c r ih =>
    cases e with
    | backslash => exact ih _ h
    | none =>
      simp only [stringEnd, List.cons_append] at h ⊢
      repeat' split at h
      all_goals simp_all
    | cr =>
      simp only [stringEnd, List.cons_append] at h ⊢
      repeat' split at h
      all_goals simp_all

theorem regexEnd_append (U : Unicode) (e b : Bool) (ts rest : Text) (h : regexEnd U e b ts = some [])
    (hr : headIs (fun c => idPart U c || c = '\\') rest = false) :
    regexEnd U e b (ts ++ rest) = some rest := by
  induction ts generalizing e b with
  | nil => cases e <;> simp [regexEnd] at h
  | cons c r ih =>
    cases e with
    | true =>
      simp only [regexEnd, List.cons_append] at h ⊢
      split at h
      · simp at h
      · rename_i h1; rw [if_neg h1]; exact ih _ _ h
    | false =>
      simp only [regexEnd, List.cons_append] at h ⊢
      repeat' split at h
      · rename_i h1; rw [if_pos h1]; exact ih _ _ h
      · rename_i h1 h2; rw [if_neg h1, if_pos h2]; exact wordEnd_append U r rest h hr
      · rename_i h1 h2 h3; rw [if_neg h1, if_neg h2, if_pos h3]; exact ih _ _ h
      · rename_i h1 h2 h3 h4; rw [if_neg h1, if_neg h2, if_neg h3, if_pos h4]; exact ih _ _ h
      · simp at h
      · rename_i h1 h2 h3 h4 h5
        rw [if_neg h1, if_neg h2, if_neg h3, if_neg h4, if_neg h5]; exact ih _ _ h

end Verif.Lex
