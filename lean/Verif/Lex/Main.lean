import Verif.Lex.Write

/-! # The lexer reads what the emitter wrote -/

namespace Verif.Lex

/-- Names, keywords and numbers. -/
def wordish : Item → Bool
  | .word _ _ | .number _ | .bigint _ => true
  | _ => false

theorem idStart_part {U : Unicode} {c : Char} (h : isAscii c = true) (hs : idStart U c = true) :
    idPart U c = true := by
  rw [idStart_ascii h] at hs
  rw [idPart_ascii h]
  simp only [Bool.or_eq_true] at hs ⊢
  rcases hs with (hs | hs) | hs
  · left; left; left; exact hs
  · left; left; right; exact hs
  · right; exact hs

theorem leadingChar_part {U : Unicode} {c : Char} (h : isAscii c = true) (hs : idPart U c = true) :
    leadingChar c = .word ∨ leadingChar c = .number := by
  rw [idPart_ascii h] at hs
  unfold leadingChar
  by_cases hd : c.isDigit = true
  · right; rw [if_pos hd]
  · left
    rw [if_neg hd]
    simp only [hd, Bool.or_eq_true, decide_eq_true_eq, or_false, Bool.false_eq_true] at hs
    rw [if_pos]
    simp only [Bool.or_eq_true, decide_eq_true_eq]
    rcases hs with (hs | hs) | hs <;> simp [hs]

theorem trailingChar_part {U : Unicode} {c : Char} {r : Text} (h : isAscii c = true)
    (hs : idPart U c = true) : trailingChar (c :: r) = .word ∨ trailingChar (c :: r) = .number := by
  rw [idPart_ascii h] at hs
  rw [trailingChar]
  by_cases hd : c.isDigit = true
  · right; rw [if_pos hd]
  · left
    rw [if_neg hd]
    simp only [hd, Bool.or_eq_true, decide_eq_true_eq, or_false, Bool.false_eq_true] at hs
    rw [if_pos]
    simp only [Bool.or_eq_true, decide_eq_true_eq]
    rcases hs with (hs | hs) | hs <;> simp [hs]

theorem wordEnd_all {U : Unicode} {r : Text} (h : wordEnd U r = some []) : ∀ x ∈ r, idPart U x = true := by
  induction r with
  | nil => simp
  | cons c r ih =>
    simp only [wordEnd] at h
    split at h
    · simp at h
    · split at h
      · rename_i h2
        intro x hx
        rcases List.mem_cons.mp hx with rfl | hx
        · exact h2
        · exact ih h x hx
      · simp at h

theorem number_shape {U : Unicode} {m : Mode} {k : Kind} {cs : Text} (h : Shape U m k cs)
    (hk : k = .number ∨ k = .bigint) :
    ∃ c r, cs = c :: r ∧ (c.isDigit = true ∨ (c = '.' ∧ headIs Char.isDigit r = true)) := by
  cases h with
  | word => simp at hk
  | digits h1 _ => exact ⟨_, _, rfl, .inl h1⟩
  | dot h1 _ => exact ⟨_, _, rfl, .inr ⟨rfl, h1⟩⟩
  | string => simp at hk
  | regex => simp at hk
  | punct => simp at hk

theorem word_shape {U : Unicode} {m : Mode} {cs : Text} (h : Shape U m .word cs) :
    ∃ c r, cs = c :: r ∧ c ≠ '\\' ∧ idStart U c = true ∧ ∀ x ∈ r, idPart U x = true := by
  cases h with
  | word h1 h2 h3 => exact ⟨_, _, rfl, h1, h2, wordEnd_all h3⟩
  | digits _ h => rcases numberEnd_kind h with h | h <;> simp at h
  | dot _ h => rcases numberEnd_kind h with h | h <;> simp at h

theorem string_shape {U : Unicode} {m : Mode} {cs : Text} (h : Shape U m .string cs) :
    ∃ c r, cs = c :: r ∧ (c = '"' ∨ c = '\'') := by
  cases h with
  | string h1 h2 => exact ⟨_, _, rfl, h1⟩
  | digits _ h => rcases numberEnd_kind h with h | h <;> simp at h
  | dot _ h => rcases numberEnd_kind h with h | h <;> simp at h

theorem regex_shape {U : Unicode} {m : Mode} {cs : Text} (h : Shape U m .regex cs) : ∃ r, cs = '/' :: r := by
  cases h with
  | regex h1 h2 => exact ⟨_, rfl⟩
  | digits _ h => rcases numberEnd_kind h with h | h <;> simp at h
  | dot _ h => rcases numberEnd_kind h with h | h <;> simp at h

theorem punct_shape {U : Unicode} {m : Mode} {cs : Text} (h : Shape U m .punct cs) : cs ∈ operators := by
  cases h with
  | punct h => exact h
  | digits _ h => rcases numberEnd_kind h with h | h <;> simp at h
  | dot _ h => rcases numberEnd_kind h with h | h <;> simp at h

/-- A name, keyword or number is separated from one that comes before. -/
theorem wordish_leading {U : Unicode} {m : Mode} {j : Item} {k : Kind} {cs : Text} (hw : wordish j = true)
    (hp : plain j = true) (hj : j.lexeme = some (k, cs)) (hs : Shape U m k cs) :
    leadingOf j = .word ∨ leadingOf j = .number := by
  cases j with
  | word b w =>
    simp only [Item.lexeme, Option.some.injEq, Prod.mk.injEq] at hj
    obtain ⟨rfl, rfl⟩ := hj
    cases b with
    | false => left; rfl
    | true =>
      obtain ⟨c, r, rfl, _, h2, _⟩ := word_shape hs
      simp only [plain, List.all_cons, Bool.and_eq_true] at hp
      exact leadingChar_part hp.1 (idStart_part hp.1 h2)
  | number w => right; rfl
  | bigint w => right; rfl
  | _ => simp [wordish] at hw

theorem needsSpace_wordish {b : Boundary} {l : Leading} (hb : b = .word ∨ b = .number)
    (hl : l = .word ∨ l = .number) : needsSpace b l = true := by
  rcases hb with rfl | rfl <;> rcases hl with rfl | rfl <;> rfl

theorem behind_wordish (U : Unicode) (st : State) (is : List Item) (ms : List Mode) (ht : Tokens U is ms)
    (f : Char → Bool) (h1 : f ' ' = false) (h2 : f '\n' = false) (h3 : ∀ c ∈ opHeads, f c = false)
    (h4 : f '"' = false ∧ f '\'' = false)
    (hw : ∀ j, is.head? = some j → wordish j = true →
      plain j = true ∧ (st.trailing = .word ∨ st.trailing = .number)) :
    headIs f (writeAll st is) = false := by
  refine head_behind U st is ms ht f h1 h2 ?_
  intro j k cs m hj hl hs hn _
  cases hwj : wordish j with
  | true =>
    obtain ⟨hp, hb⟩ := hw j hj hwj
    rw [needsSpace_wordish hb (wordish_leading hwj hp hl hs)] at hn
    exact absurd hn (by decide)
  | false =>
    cases j <;> simp [wordish] at hwj <;> simp [Item.lexeme] at hl <;> obtain ⟨rfl, rfl⟩ := hl
    · obtain ⟨c, r, rfl, rfl | rfl⟩ := string_shape hs
      · exact h4.1
      · exact h4.2
    · obtain ⟨r, rfl⟩ := regex_shape hs
      exact h3 _ (by decide)
    · obtain ⟨c, r, rfl, hc⟩ := op_head (punct_shape hs)
      exact h3 c hc

theorem ordered_cons {f : Item → Item → Bool} {start : Bool} {i : Item} {is : List Item}
    (h : Ordered f start (i :: is)) : plain i = true ∧ (opensComment (i :: is) = true → start = true) ∧
    (∀ j, is.head? = some j → f i j = true) ∧ Ordered f (lineStartAfter start i) is := h

theorem ordered_head {f : Item → Item → Bool} {start : Bool} {is : List Item} (h : Ordered f start is)
    (j : Item) (hj : is.head? = some j) : plain j = true := by
  cases is with
  | nil => simp at hj
  | cons i is => simp at hj; subst hj; exact h.1

theorem notPart_facts (U : Unicode) (c : Char) (h : c = ' ' ∨ c = '\n' ∨ c = '"' ∨ c = '\'') :
    (idPart U c || decide (c = '\\')) = false := by
  rcases h with rfl | rfl | rfl | rfl <;> rw [idPart_ascii (by decide)] <;> decide

/-- The characters of operators. -/
theorem joins_char {p : Text} {c : Char} (h : (operators.any fun o => (p ++ [c]).isPrefixOf o) = true) :
    c ∈ opHeads := by
  have key : ∀ o ∈ operators, ∀ c ∈ o, c ∈ opHeads := by decide
  rw [List.any_eq_true] at h
  obtain ⟨o, ho, hp⟩ := h
  obtain ⟨t, rfl⟩ := prefix_iff.mp hp
  exact key _ ho c (by simp)

/-- What the emitter writes behind a token does not continue it. -/
theorem fits (U : Unicode) (m : Mode) (i : Item) (is : List Item) (ms : List Mode) (k : Kind) (cs : Text)
    (st : State) (start : Bool) (hi : i.lexeme = some (k, cs)) (hs : Shape U m k cs)
    (ht : Tokens U is ms) (ho : Ordered apart start (i :: is)) (htr : st.trailing = trailingOf i) :
    Fits U k cs (writeAll st is) := by
  obtain ⟨hp, hop, hf, ho'⟩ := ordered_cons ho
  have hpl := ordered_head ho'
  cases i with
  | word b w =>
    simp only [Item.lexeme, Option.some.injEq, Prod.mk.injEq] at hi
    obtain ⟨rfl, rfl⟩ := hi
    have hb : st.trailing = .word ∨ st.trailing = .number := by
      rw [htr]
      cases b with
      | false => left; rfl
      | true =>
        obtain ⟨c, r, rfl, _, h2, h3⟩ := word_shape hs
        have h4 : ∀ x ∈ c :: r, isAscii x = true ∧ idPart U x = true := by
          simp only [plain, List.all_eq_true] at hp
          intro x hx
          refine ⟨hp x hx, ?_⟩
          rcases List.mem_cons.mp hx with rfl | hx'
          · exact idStart_part (hp _ hx) h2
          · exact h3 x hx'
        simp only [trailingOf]
        cases hr : (c :: r).reverse with
        | nil => simp at hr
        | cons x xs =>
          have hx : x ∈ c :: r := by rw [← List.mem_reverse, hr]; simp
          exact trailingChar_part (h4 x hx).1 (h4 x hx).2
    refine behind_wordish U st is ms ht _ (notPart_facts U _ (by simp)) (notPart_facts U _ (by simp)) ?_
      ⟨notPart_facts U _ (by simp), notPart_facts U _ (by simp)⟩ (fun j hj _ => ⟨hpl j hj, hb⟩)
    intro c hc
    have := opHeads_facts U hc
    simp [this.2.2.1, this.2.2.2.2.2.1]
  | number w =>
    simp only [Item.lexeme, Option.some.injEq, Prod.mk.injEq] at hi
    obtain ⟨rfl, rfl⟩ := hi
    have hb : st.trailing = .word ∨ st.trailing = .number := by rw [htr]; right; rfl
    refine ⟨?_, ?_⟩
    · refine behind_wordish U st is ms ht _ (by decide) (by decide) (by decide) (by decide)
        (fun j hj _ => ⟨hpl j hj, hb⟩)
    · intro hd
      refine head_behind U st is ms ht _ (by decide) (by decide) ?_
      intro j k' cs' m' hj hl hs' hn hsh
      cases hwj : wordish j with
      | true =>
        rw [needsSpace_wordish hb (wordish_leading hwj (hpl j hj) hl hs')] at hn
        exact absurd hn (by decide)
      | false =>
        have hff := hf j hj
        cases j <;> simp [wordish] at hwj <;> simp [Item.lexeme] at hl <;> obtain ⟨rfl, rfl⟩ := hl
        · obtain ⟨c, r, rfl, rfl | rfl⟩ := string_shape hs' <;> rfl
        · obtain ⟨r, rfl⟩ := regex_shape hs'; rfl
        · obtain ⟨c, r, rfl, hc⟩ := op_head (punct_shape hs')
          simp [apart, mayFollow, hd] at hff
          simp [headIs, hff]
  | bigint w =>
    simp only [Item.lexeme, Option.some.injEq, Prod.mk.injEq] at hi
    obtain ⟨rfl, rfl⟩ := hi
    have hb : st.trailing = .word ∨ st.trailing = .number := by rw [htr]; left; rfl
    refine ⟨?_, ?_⟩
    · refine behind_wordish U st is ms ht _ (by decide) (by decide) (by decide) (by decide)
        (fun j hj _ => ⟨hpl j hj, hb⟩)
    · intro hd
      simp [takesDot] at hd
  | string w =>
    simp only [Item.lexeme, Option.some.injEq, Prod.mk.injEq] at hi
    obtain ⟨rfl, rfl⟩ := hi
    trivial
  | regex w =>
    simp only [Item.lexeme, Option.some.injEq, Prod.mk.injEq] at hi
    obtain ⟨rfl, rfl⟩ := hi
    refine behind_wordish U st is ms ht _ (notPart_facts U _ (by simp)) (notPart_facts U _ (by simp)) ?_
      ⟨notPart_facts U _ (by simp), notPart_facts U _ (by simp)⟩ ?_
    · intro c hc
      have := opHeads_facts U hc
      simp [this.2.2.1, this.2.2.2.2.2.1]
    · intro j hj hw
      refine ⟨hpl j hj, ?_⟩
      have hff := hf j hj
      have hfl : hasFlags w = true := by
        cases j <;> simp [wordish] at hw <;> simpa [apart, mayFollow] using hff
      rw [htr]
      simp only [trailingOf]
      simp only [hasFlags] at hfl
      cases hr : w.reverse with
      | nil => rw [hr] at hfl; simp at hfl
      | cons x xs =>
        rw [hr] at hfl
        simp only [Bool.or_eq_true, decide_eq_true_eq] at hfl
        rw [trailingChar]
        by_cases hd : x.isDigit = true
        · right; rw [if_pos hd]
        · left
          rw [if_neg hd, if_pos]
          simp only [Bool.or_eq_true, decide_eq_true_eq]
          rcases hfl with ((h | h) | h) | h
          · simp [h]
          · exact absurd h hd
          · simp [h]
          · simp [h]
  | punct p =>
    simp only [Item.lexeme, Option.some.injEq, Prod.mk.injEq] at hi
    obtain ⟨rfl, rfl⟩ := hi
    have hpo := punct_shape hs
    have hdot : ∀ p ∈ operators, (operators.any fun o => (p ++ ['.']).isPrefixOf o) = true →
        p = ['.'] ∨ p = ['?'] := by decide
    have hslash : ∀ p ∈ operators, (operators.any fun o => (p ++ ['/']).isPrefixOf o) = false := by decide
    refine ⟨?_, ?_⟩
    · intro hd
      refine head_behind U st is ms ht _ (by decide) (by decide) ?_
      intro j k' cs' m' hj hl hs' hn hsh
      have hff := hf j hj
      cases j <;> simp [Item.lexeme] at hl <;> obtain ⟨rfl, rfl⟩ := hl
      · obtain ⟨c, r, rfl, _, h2, _⟩ := word_shape hs'
        simp only [headIs]
        rw [← Bool.not_eq_true]
        intro hdig
        rw [(digit_notStart U hdig).1] at h2
        exact absurd h2 (by decide)
      · rcases hd with rfl | rfl <;> simp [apart, mayFollow] at hff
      · rcases hd with rfl | rfl <;> simp [apart, mayFollow] at hff
      · rcases hd with rfl | rfl <;> simp [apart, mayFollow] at hff
      · rcases hd with rfl | rfl <;> simp [apart, mayFollow] at hff
      · obtain ⟨c, r, rfl, hc⟩ := op_head (punct_shape hs')
        exact (opHeads_facts U hc).2.2.2.1
    · rcases writeAll_cases U st is ms ht with he | ⟨r, he⟩ | ⟨r, he⟩ |
        ⟨j, js, m', ms', k', cs', rfl, rfl, hl, ha, hm, ht', hn, hsh, hw, he⟩
      · rw [he]; left; rfl
      · left; rw [he, joinsNext, headIs, ← Bool.not_eq_true]
        intro h; exact absurd (joins_char h) (by decide)
      · left; rw [he, joinsNext, headIs, ← Bool.not_eq_true]
        intro h; exact absurd (joins_char h) (by decide)
      · obtain ⟨hne, htok, _⟩ := alone_inv ha
        have hs' := shape_of htok
        have hff := hf j rfl
        have hjn : joinsNext p (cs' ++ writeAll ⟨trailingOf j, advanceHtml st.html cs'⟩ js) =
            joinsNext p cs' := headIs_append _ _ _ (.inl hne)
        rw [he, hjn]
        have hnum : (k' = .number ∨ k' = .bigint) → p ≠ ['.'] →
            joinsNext p cs' = false ∨ p = ['?'] ∧
              headIs (fun x => decide (x = '.'))
                (cs' ++ writeAll ⟨trailingOf j, advanceHtml st.html cs'⟩ js) = true ∧
              headIs Char.isDigit
                ((cs' ++ writeAll ⟨trailingOf j, advanceHtml st.html cs'⟩ js).drop 1) = true := by
          intro hk hpd
          obtain ⟨c, r, rfl, hc⟩ := number_shape hs' hk
          rcases hc with hc | ⟨rfl, hc⟩
          · left
            simp only [joinsNext, headIs]
            rw [← Bool.not_eq_true]
            intro h
            have := (opHeads_facts U (joins_char h)).2.2.2.1
            rw [hc] at this
            exact absurd this (by decide)
          · by_cases hjj : joinsNext p ('.' :: r) = true
            · right
              simp only [joinsNext, headIs] at hjj
              rcases hdot p hpo hjj with h | h
              · exact absurd h hpd
              · refine ⟨h, rfl, ?_⟩
                simp only [List.cons_append, List.drop_succ_cons, List.drop_zero]
                cases r with
                | nil => simp [headIs] at hc
                | cons d q => exact hc
            · left; simpa using hjj
        cases j <;> simp [Item.lexeme] at hl <;> obtain ⟨rfl, rfl⟩ := hl
        · left
          obtain ⟨c, r, rfl, _, h2, _⟩ := word_shape hs'
          simp only [joinsNext, headIs]
          rw [← Bool.not_eq_true]
          intro h
          have := (opHeads_facts U (joins_char h)).2.1
          rw [h2] at this
          exact absurd this (by decide)
        · exact hnum (.inl rfl) (by rintro rfl; simp [apart, mayFollow] at hff)
        · exact hnum (.inr rfl) (by rintro rfl; simp [apart, mayFollow] at hff)
        · left
          obtain ⟨c, r, rfl, rfl | rfl⟩ := string_shape hs'
          · simp only [joinsNext, headIs]
            rw [← Bool.not_eq_true]
            intro h
            exact absurd (joins_char h) (by decide)
          · simp only [joinsNext, headIs]
            rw [← Bool.not_eq_true]
            intro h
            exact absurd (joins_char h) (by decide)
        · left
          obtain ⟨r, rfl⟩ := regex_shape hs'
          exact hslash p hpo
        · left
          rename_i q
          obtain ⟨c, r, rfl, hc⟩ := op_head (punct_shape hs')
          simp only [apart, Bool.or_eq_true, Bool.not_eq_true', joins] at hff
          rcases hff with hff | hff
          · exact hff
          · exfalso
            rw [htr] at hn
            simp only [separated, Bool.or_eq_true, Bool.and_eq_true, beq_iff_eq] at hff
            rcases hff with ⟨rfl, h | h⟩ | ⟨rfl, h | h⟩ <;> rw [h] at hn <;> revert hn <;> decide
  | space => simp [Item.lexeme] at hi
  | newline => simp [Item.lexeme] at hi

/-- A minus sign is not followed by another. -/
theorem minus_behind (U : Unicode) (is : List Item) (ms : List Mode) (st : State) (start : Bool)
    (ht : Tokens U is ms) (ho : Ordered apart start (.punct ['-'] :: is)) (htr : st.trailing = .minus) :
    headIs (· = '-') (writeAll st is) = false := by
  obtain ⟨hp, hop, hf, ho'⟩ := ordered_cons ho
  refine head_behind U st is ms ht _ (by decide) (by decide) ?_
  intro j k' cs' m' hj hl hs' hn hsh
  have hff := hf j hj
  have hpl := ordered_head ho' j hj
  cases j <;> simp [Item.lexeme] at hl <;> obtain ⟨rfl, rfl⟩ := hl
  · obtain ⟨c, r, rfl, _, h2, _⟩ := word_shape hs'
    simp only [headIs, decide_eq_false_iff_not]
    rintro rfl
    rw [idStart_ascii (by decide)] at h2
    exact absurd h2 (by decide)
  · obtain ⟨c, r, rfl, hc⟩ := number_shape hs' (.inl rfl)
    simp only [headIs, decide_eq_false_iff_not]
    rintro rfl
    exact absurd hc (by simp)
  · obtain ⟨c, r, he, hc⟩ := number_shape hs' (.inr rfl)
    rw [he]
    simp only [headIs, decide_eq_false_iff_not]
    rintro rfl
    exact absurd hc (by simp)
  · obtain ⟨c, r, rfl, rfl | rfl⟩ := string_shape hs' <;> rfl
  · obtain ⟨r, rfl⟩ := regex_shape hs'; rfl
  · have hq := punct_shape hs'
    rw [htr] at hn
    have key : ∀ q ∈ operators, apart (.punct ['-']) (.punct q) = true →
        needsSpace .minus (leadingOf (.punct q)) = false → headIs (· = '-') q = false := by decide
    exact key _ hq hff hn

/-- Behind a space or newline, or an item other than a punctuator, there is no `!`, `-`, `>`, `/` or `*`
unless the item is a regular expression. -/
theorem op_behind (U : Unicode) (is : List Item) (ms : List Mode) (st : State) (ht : Tokens U is ms)
    (c : Char) (hc : c = '!' ∨ c = '-' ∨ c = '>' ∨ c = '*') (r : Text) (h : writeAll st is = c :: r) :
    ∃ (q : Text) (js : List Item) (m : Mode) (ms' : List Mode), is = .punct q :: js ∧ ms = m :: ms' ∧
      q ∈ operators ∧ headIs (· = c) q = true ∧ Tokens U js ms' ∧
      needsSpace st.trailing (leadingOf (.punct q)) = false ∧ startsHtml st.html q = false ∧
      writeAll st is = q ++ writeAll ⟨trailingOf (.punct q), advanceHtml st.html q⟩ js := by
  rcases writeAll_cases U st is ms ht with he | ⟨r', he⟩ | ⟨r', he⟩ |
    ⟨j, js, m', ms', k', cs', rfl, rfl, hl, ha, hm, ht', hn, hsh, hw, he⟩
  · rw [h] at he; simp at he
  · rw [h] at he; simp at he; rw [he.1] at hc; exact absurd hc (by decide)
  · rw [h] at he; simp at he; rw [he.1] at hc; exact absurd hc (by decide)
  · obtain ⟨hne, htok, _⟩ := alone_inv ha
    have hs' := shape_of htok
    have hhead : headIs (· = c) cs' = true := by
      rw [he] at h
      cases cs' with
      | nil => exact absurd rfl hne
      | cons d q => simp at h; simp [headIs, h.1]
    cases j <;> simp [Item.lexeme] at hl <;> obtain ⟨rfl, rfl⟩ := hl
    · obtain ⟨d, r, rfl, _, h2, _⟩ := word_shape hs'
      simp only [headIs, decide_eq_true_eq] at hhead
      subst hhead
      exfalso
      rw [idStart_ascii (by rcases hc with rfl | rfl | rfl | rfl <;> decide)] at h2
      rcases hc with rfl | rfl | rfl | rfl <;> exact absurd h2 (by decide)
    · obtain ⟨d, r, rfl, hd⟩ := number_shape hs' (.inl rfl)
      simp only [headIs, decide_eq_true_eq] at hhead
      subst hhead
      rcases hc with rfl | rfl | rfl | rfl <;> exact absurd hd (by simp)
    · obtain ⟨d, r, he', hd⟩ := number_shape hs' (.inr rfl)
      rw [he'] at hhead
      simp only [headIs, decide_eq_true_eq] at hhead
      subst hhead
      rcases hc with rfl | rfl | rfl | rfl <;> exact absurd hd (by simp)
    · obtain ⟨d, r, rfl, hd⟩ := string_shape hs'
      simp only [headIs, decide_eq_true_eq] at hhead
      subst hhead
      rcases hc with rfl | rfl | rfl | rfl <;> exact absurd hd (by decide)
    · obtain ⟨r, rfl⟩ := regex_shape hs'
      simp only [headIs, decide_eq_true_eq] at hhead
      subst hhead
      exact absurd hc (by decide)
    · exact ⟨_, _, _, _, rfl, rfl, punct_shape hs', hhead, ht', hn, hsh, he⟩

/-- What the emitter writes behind a token starts no comment with it. -/
theorem no_comment (U : Unicode) (m : Mode) (i : Item) (is : List Item) (ms : List Mode) (k : Kind)
    (cs : Text) (st st' : State) (start : Bool) (hi : i.lexeme = some (k, cs)) (hs : Shape U m k cs)
    (hm : AskedFor m (k, cs)) (ht : Tokens U is ms) (ho : Ordered apart start (i :: is))
    (hst : start = true → st.html = .start) (htr : st'.trailing = trailingOf i)
    (hh : st'.html = advanceHtml st.html (gap st (leadingOf i) cs ++ cs)) :
    NoComment start cs (writeAll st' is) := by
  have hpunct : ∀ (c : Char) (r : Text), c = '/' ∧ r = [] ∨ c = '<' ∨ c = '-' → cs = c :: r →
      i = .punct cs := by
    intro c r hc he
    subst he
    cases i <;> simp [Item.lexeme] at hi <;> obtain ⟨rfl, hcs⟩ := hi
    · obtain ⟨d, q, he, _, h2, _⟩ := word_shape hs
      simp at he
      obtain ⟨rfl, rfl⟩ := he
      exfalso
      rw [idStart_ascii (by rcases hc with ⟨rfl, _⟩ | rfl | rfl <;> decide)] at h2
      rcases hc with ⟨rfl, _⟩ | rfl | rfl <;> exact absurd h2 (by decide)
    · obtain ⟨d, q, he, hd⟩ := number_shape hs (.inl rfl)
      simp at he
      obtain ⟨rfl, rfl⟩ := he
      rcases hc with ⟨rfl, _⟩ | rfl | rfl <;> exact absurd hd (by simp)
    · obtain ⟨d, q, he, hd⟩ := number_shape hs (.inr rfl)
      simp at he
      obtain ⟨rfl, rfl⟩ := he
      rcases hc with ⟨rfl, _⟩ | rfl | rfl <;> exact absurd hd (by simp)
    · obtain ⟨d, q, he, hd⟩ := string_shape hs
      simp at he
      obtain ⟨rfl, rfl⟩ := he
      rcases hc with ⟨rfl, _⟩ | rfl | rfl <;> exact absurd hd (by decide)
    · cases hs with
      | regex h1 h2 =>
        rcases hc with ⟨_, rfl⟩ | hc | hc
        · simp [regexEnd] at h2
        · exact absurd hc (by decide)
        · exact absurd hc (by decide)
      | digits _ h => rcases numberEnd_kind h with h | h <;> simp at h
      | dot _ h => rcases numberEnd_kind h with h | h <;> simp at h
    · rw [hcs]
  have hhtml : ∀ (l : Leading), start = true → (cs = ['<'] ∨ cs = ['-', '-']) →
      advanceHtml st.html (gap st l cs ++ cs) = advanceHtml .start cs := by
    intro l h1 h2
    rw [hst h1, advance_append]
    have hg : startsHtml .start cs = false := by rcases h2 with rfl | rfl <;> decide
    simp only [gap, hst h1]
    have e1 : advanceHtml .start [' '] = .start := by decide
    have e2 : advanceHtml .start [] = .start := by decide
    split
    · rw [e1, hg]; simp only [Bool.false_eq_true, if_false, List.append_nil, e1]
    · rw [e2, hg]; simp only [Bool.false_eq_true, if_false, List.append_nil, e2]
  refine ⟨?_, ?_, ?_, ?_⟩
  · intro he
    have hip := hpunct '/' [] (.inl ⟨rfl, rfl⟩) he
    subst he
    subst hip
    refine head_behind U st' is ms ht _ (by decide) (by decide) ?_
    intro j k' cs' m' hj hl hs' hn hsh
    rw [htr] at hn
    cases j <;> simp [Item.lexeme] at hl <;> obtain ⟨rfl, rfl⟩ := hl
    · obtain ⟨c, r, rfl, _, h2, _⟩ := word_shape hs'
      simp only [headIs, Bool.or_eq_false_iff, decide_eq_false_iff_not]
      refine ⟨?_, ?_⟩ <;> rintro rfl <;> rw [idStart_ascii (by decide)] at h2 <;> exact absurd h2 (by decide)
    · obtain ⟨c, r, rfl, hc⟩ := number_shape hs' (.inl rfl)
      simp only [headIs, Bool.or_eq_false_iff, decide_eq_false_iff_not]
      refine ⟨?_, ?_⟩ <;> rintro rfl <;> exact absurd hc (by simp)
    · obtain ⟨c, r, he, hc⟩ := number_shape hs' (.inr rfl)
      rw [he]
      simp only [headIs, Bool.or_eq_false_iff, decide_eq_false_iff_not]
      refine ⟨?_, ?_⟩ <;> rintro rfl <;> exact absurd hc (by simp)
    · obtain ⟨c, r, rfl, rfl | rfl⟩ := string_shape hs' <;> rfl
    · obtain ⟨r, rfl⟩ := regex_shape hs'
      exact absurd hn (by simp [leadingOf]; decide)
    · have key : ∀ q ∈ operators, needsSpace (trailingOf (.punct ['/'])) (leadingOf (.punct q)) = false →
          headIs (fun c => c = '/' || c = '*') q = false := by decide
      exact key _ (punct_shape hs') hn
  · intro he
    have hip := hpunct '<' [] (.inr (.inl rfl)) he
    subst he
    subst hip
    rw [← Bool.not_eq_true]
    intro hpre
    obtain ⟨t, hpre⟩ := prefix_iff.mp hpre
    obtain ⟨q, js, m', ms', rfl, rfl, hq, hqh, ht', hn, hsh, hw⟩ :=
      op_behind U is ms st' ht '!' (by simp) _ hpre
    have key : ∀ q ∈ operators, headIs (· = '!') q = true → q = ['!'] ∨ ['!', '='].isPrefixOf q = true := by
      decide
    rcases key q hq hqh with rfl | hq'
    · rw [hw] at hpre
      simp only [List.cons_append, List.nil_append, List.cons.injEq, true_and] at hpre
      obtain ⟨q2, ks, m2, ms2, rfl, rfl, hq2, hqh2, ht2, hn2, hsh2, hw2⟩ :=
        op_behind U js ms' _ ht' '-' (by simp) _ hpre
      have key2 : ∀ q ∈ operators, headIs (· = '-') q = true →
          q = ['-'] ∨ q = ['-', '-'] ∨ ['-', '='].isPrefixOf q = true := by decide
      have ho2 := (ordered_cons ho).2.2.2
      have ho3 := (ordered_cons ho2).2.2.2
      rcases key2 q2 hq2 hqh2 with rfl | rfl | hq2'
      · have hmb := fun (h : HtmlStart) => minus_behind U ks ms2 ⟨trailingOf (.punct ['-']), h⟩ _ ht2 ho3 rfl
        rw [hw2] at hpre
        simp only [List.cons_append, List.nil_append, List.cons.injEq, true_and] at hpre
        have := hmb (advanceHtml (advanceHtml st'.html ['!']) ['-'])
        rw [hpre] at this
        simp [headIs] at this
      · have hstart := (ordered_cons ho).2.1 rfl
        have h1 := hhtml (leadingOf (.punct ['<'])) hstart (.inl rfl)
        rw [← hh] at h1
        simp only [h1] at hsh2
        exact absurd hsh2 (by decide)
      · obtain ⟨t', rfl⟩ := prefix_iff.mp hq2'
        rw [hw2] at hpre
        simp at hpre
    · obtain ⟨t', rfl⟩ := prefix_iff.mp hq'
      rw [hw] at hpre
      simp at hpre
  · intro he
    have hip := hpunct '-' [] (.inr (.inr rfl)) he
    subst he
    subst hip
    exact minus_behind U is ms st' start ht ho htr
  · intro he hstart
    have hip := hpunct '-' ['-'] (.inr (.inr rfl)) he
    subst he
    subst hip
    have h1 := hhtml (leadingOf (.punct ['-', '-'])) hstart (.inr rfl)
    rw [← hh] at h1
    rw [← Bool.not_eq_true]
    intro hgt
    cases hwr : writeAll st' is with
    | nil => rw [hwr] at hgt; simp [headIs] at hgt
    | cons c r =>
      rw [hwr] at hgt
      simp only [headIs, decide_eq_true_eq] at hgt
      subst hgt
      obtain ⟨q, js, m', ms', rfl, rfl, hq, hqh, ht', hn, hsh, hw⟩ :=
        op_behind U is ms st' ht '>' (by simp) _ hwr
      rw [h1] at hsh
      cases q with
      | nil => simp [headIs] at hqh
      | cons d q =>
        simp only [headIs, decide_eq_true_eq] at hqh
        subst hqh
        have e : (nextHtml (advanceHtml .start ['-', '-']) '>').2 = true := by decide
        simp only [startsHtml, e, Bool.true_or] at hsh
        exact absurd hsh (by decide)

theorem skip_space (start nl : Bool) (ts : Text) :
    skip (' ' :: ts).length start nl (' ' :: ts) = skip ts.length start nl ts := by
  rw [List.length_cons, skip]
  simp [List.isPrefixOf, headIs, isLineTerminator, isWhitespace]

theorem skip_newline (start nl : Bool) (ts : Text) :
    skip ('\n' :: ts).length start nl ('\n' :: ts) = skip ts.length true true ts := by
  rw [List.length_cons, skip]
  simp [List.isPrefixOf, headIs, isLineTerminator]

theorem lexFrom_space (U : Unicode) (ms : List Mode) (start nl : Bool) (ts : Text) :
    lexFrom U ms start nl (' ' :: ts) = lexFrom U ms start nl ts := by
  cases ms <;> simp only [lexFrom, skip_space]

theorem lexFrom_newline (U : Unicode) (ms : List Mode) (start nl : Bool) (ts : Text) :
    lexFrom U ms start nl ('\n' :: ts) = lexFrom U ms true true ts := by
  cases ms <;> simp only [lexFrom, skip_newline]

theorem lexFrom_gap (U : Unicode) (ms : List Mode) (start nl : Bool) (st : State) (l : Leading)
    (cs ts : Text) : lexFrom U ms start nl (gap st l cs ++ ts) = lexFrom U ms start nl ts := by
  simp only [gap]
  repeat' split
  all_goals simp [lexFrom_space]

theorem lexFrom_token (U : Unicode) (m : Mode) (ms : List Mode) (start nl : Bool) (k : Kind)
    (cs rest : Text) (hs : NoSkip start (cs ++ rest)) (ht : token U m (cs ++ rest) = some (k, rest)) :
    lexFrom U (m :: ms) start nl (cs ++ rest) =
      (lexFrom U ms false false rest).map fun l => ⟨k, cs, nl⟩ :: l := by
  simp only [lexFrom, skip_stay _ _ _ _ hs, ht]
  simp

theorem lex_written (U : Unicode) (is : List Item) (ms : List Mode) (st : State) (start nl : Bool)
    (ht : Tokens U is ms) (ho : Ordered apart start is) (hst : start = true → st.html = .start) :
    lexFrom U ms start nl (writeAll st is) = some (tokensOf nl is) := by
  induction is generalizing ms st start nl with
  | nil =>
    cases ht with
    | nil => simp [writeAll, lexFrom, tokensOf, skip]
  | cons i is ih =>
    cases ht with
    | blank hi ht =>
      obtain ⟨_, _, _, ho'⟩ := ordered_cons ho
      cases i <;> simp [Item.lexeme] at hi
      · simp only [writeAll, writeItem, List.cons_append, List.nil_append, lexFrom_space, tokensOf]
        refine ih ms _ start nl ht ho' ?_
        intro h
        rw [hst h]; rfl
      · simp only [writeAll, writeItem, List.cons_append, List.nil_append, lexFrom_newline, tokensOf]
        refine ih ms _ true true ht ho' ?_
        intro _
        simp [advanceHtml, nextHtml]
    | @tok _ _ m ms k cs hi hm ha ht =>
      obtain ⟨hne, htok, hns⟩ := alone_inv ha
      have hs := shape_of htok
      have hb : k = .bigint → cs ≠ ['n'] := by
        rintro rfl rfl
        cases hs with
        | digits h _ => revert h; decide
      have hw := writeItem_eq st hi hne hb
      obtain ⟨hp, hop, hf, ho'⟩ := ordered_cons ho
      have hls : lineStartAfter start i = false := by cases i <;> simp [Item.lexeme] at hi <;> rfl
      rw [hls] at ho'
      simp only [writeAll, hw, List.append_assoc]
      rw [lexFrom_gap]
      have hfit := fits U m i is ms k cs ⟨trailingOf i, advanceHtml st.html (gap st (leadingOf i) cs ++ cs)⟩
        start hi hs ht ho rfl
      have hcom := no_comment U m i is ms k cs st
        ⟨trailingOf i, advanceHtml st.html (gap st (leadingOf i) cs ++ cs)⟩ start hi hs hm ht ho hst rfl rfl
      rw [lexFrom_token U m ms start nl k cs _ (noSkip_append hne htok hns hcom)
        (token_append U m k cs _ htok hm hfit)]
      rw [ih ms _ false false ht ho' (by simp)]
      cases i <;> simp [Item.lexeme] at hi <;> obtain ⟨rfl, rfl⟩ := hi <;> rfl

/-- The grammar allows only punctuators behind one another that do not join. -/
theorem apart_of_mayFollow (U : Unicode) (is : List Item) (ms : List Mode) (start : Bool)
    (ht : Tokens U is ms) (ho : Ordered mayFollow start is) : Ordered apart start is := by
  have key : ∀ p ∈ operators, ∀ q ∈ operators, punctAfter p q = true →
      (!joins p q || separated p q) = true := by decide +kernel
  induction is generalizing ms start with
  | nil => trivial
  | cons i is ih =>
    obtain ⟨hp, hop, hf, ho'⟩ := ordered_cons ho
    have htail : ∃ ms', Tokens U is ms' := by
      cases ht with
      | blank _ h => exact ⟨_, h⟩
      | tok _ _ _ h => exact ⟨_, h⟩
    obtain ⟨ms', ht'⟩ := htail
    have hpo : ∀ (p : Text) (is : List Item) (ms : List Mode), Tokens U (.punct p :: is) ms →
        p ∈ operators := by
      intro p is ms h
      cases h with
      | blank h _ => simp [Item.lexeme] at h
      | tok h _ ha _ =>
        simp [Item.lexeme] at h
        obtain ⟨rfl, rfl⟩ := h
        exact punct_shape (shape_of (alone_inv ha).2.1)
    refine ⟨hp, hop, ?_, ih ms' _ ht' ho'⟩
    intro j hj
    have h := hf j hj
    cases is with
    | nil => simp at hj
    | cons j' js =>
      simp at hj
      subst hj
      by_cases hi : ∃ p, i = .punct p
      · obtain ⟨p, rfl⟩ := hi
        by_cases hj : ∃ q, j' = .punct q
        · obtain ⟨q, rfl⟩ := hj
          exact key p (hpo _ _ _ ht) q (hpo _ _ _ ht') h
        · cases j' with
          | punct q => exact absurd ⟨q, rfl⟩ hj
          | _ => exact h
      · cases i with
        | punct p => exact absurd ⟨p, rfl⟩ hi
        | _ => exact h

end Verif.Lex
