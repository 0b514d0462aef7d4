import Verif.Lex.Main

/-! # C69: neighbouring tokens do not run together -/

namespace Verif.Lex

/-- C69, proved part: tokens written one after the other in an order the grammar allows, with or without
spaces and newlines between them, are read back as these tokens, each with whether a newline was written in
front of it, whatever the Unicode tables say. `Ordered` leaves out what
`C69_html_comment_violated`, `C69_regex_violated`, `C69_integer_member_violated` and
`C69_unicode_identifier_violated` show to fail. -/
theorem C69_tokens_partial (U : Unicode) (is : List Item) (ms : List Mode) (ht : Tokens U is ms)
    (ho : Ordered mayFollow true is) : lex U ms (emit is) = some (tokensOf false is) :=
  lex_written U is ms .init true false ht (apart_of_mayFollow U is ms true ht ho) fun _ => rfl

/-- The same for any order of punctuators in which none joins with the next: not only those of the
grammar. -/
theorem C69_any_order_partial (U : Unicode) (is : List Item) (ms : List Mode) (ht : Tokens U is ms)
    (ho : Ordered apart true is) : lex U ms (emit is) = some (tokensOf false is) :=
  lex_written U is ms .init true false ht ho fun _ => rfl

/-- Two sequences that are written as the same text consist of the same tokens. -/
theorem C69_injective_partial (U : Unicode) (is js : List Item) (ms : List Mode) (hi : Tokens U is ms)
    (hj : Tokens U js ms) (oi : Ordered mayFollow true is) (oj : Ordered mayFollow true js)
    (h : emit is = emit js) : tokensOf false is = tokensOf false js := by
  have h1 := C69_tokens_partial U is ms hi oi
  rw [h, C69_tokens_partial U js ms hj oj] at h1
  exact (Option.some.inj h1).symm

/-! ## Which strings stand alone -/

theorem stringEnd_body {q : Char} (hq : q = '"' ∨ q = '\'') {t : Text} (h : StringBody q t) :
    stringEnd q .none t = some [] ∧ (t.head? ≠ some '\n' → stringEnd q .cr t = some []) := by
  have hn : q ≠ '\\' := by rcases hq with rfl | rfl <;> decide
  have hl : q ≠ '\n' := by rcases hq with rfl | rfl <;> decide
  induction h with
  | close => simp [stringEnd, hn, hl]
  | @char c r h1 h2 h3 h4 _ ih => simp [stringEnd, h1, h2, h3, h4, ih.1]
  | @escape c r h1 _ ih => simp [stringEnd, h1, ih.1]
  | crlf _ ih => simp [stringEnd, ih.1]
  | cr h1 _ ih => simp [stringEnd, ih.2 h1]

theorem body_stringEnd {q : Char} (hq : q = '"' ∨ q = '\'') : ∀ {t : Text},
    (stringEnd q .none t = some [] → StringBody q t) ∧
    (stringEnd q .backslash t = some [] → StringBody q ('\\' :: t)) ∧
    (stringEnd q .cr t = some [] → StringBody q ('\\' :: '\r' :: t))
  | [] => by simp [stringEnd]
  | c :: r => by
    obtain ⟨ih1, ih2, ih3⟩ := body_stringEnd hq (t := r)
    have none : stringEnd q .none (c :: r) = some [] → StringBody q (c :: r) := by
      intro h
      simp only [stringEnd] at h
      split at h
      · rename_i hc; simp at hc
      split at h
      · rename_i hc
        subst hc
        exact ih2 h
      split at h
      · rename_i h1 hc
        simp at h
        subst hc h
        exact .close
      split at h
      · simp at h
      · rename_i h1 h2 h3
        simp only [Bool.or_eq_true, decide_eq_true_eq, not_or] at h3
        exact .char h2 h1 h3.2 h3.1 (ih1 h)
    refine ⟨none, ?_, ?_⟩
    · intro h
      rw [stringEnd] at h
      by_cases hc : c = '\r'
      · subst hc
        exact ih3 (by simpa using h)
      · rw [if_neg hc] at h
        exact .escape hc (ih1 h)
    · intro h
      by_cases hc : c = '\n'
      · subst hc
        simp only [stringEnd] at h
        simp at h
        exact .crlf (ih1 h)
      · refine .cr (by simpa using hc) (none ?_)
        simp only [stringEnd] at h ⊢
        simpa [hc] using h

theorem alone_of {U : Unicode} {m : Mode} {k : Kind} {cs : Text} (h1 : token U m cs = some (k, []))
    (h2 : NoSkip true cs) : Alone U m k cs := by
  have := lexFrom_token U m [] true false k cs [] (by rwa [List.append_nil]) (by rwa [List.append_nil])
  rw [List.append_nil] at this
  rw [Alone, lex, this]
  rfl

/-- C69, the strings: a text is read as one string token exactly when it is a quote with the rest of a string
literal behind it.  (So the strings of the theorems above are those of the standard, line separators
included.) -/
theorem C69_strings (U : Unicode) (m : Mode) (cs : Text) :
    Alone U m .string cs ↔ ∃ (q : Char) (t : Text), (q = '"' ∨ q = '\'') ∧ cs = q :: t ∧ StringBody q t := by
  constructor
  · intro h
    have hs := shape_of (alone_inv h).2.1
    cases hs with
    | @string c r h1 h2 => exact ⟨c, r, h1, rfl, (body_stringEnd h1).1 h2⟩
    | digits _ h2 => rcases numberEnd_kind h2 with h3 | h3 <;> cases h3
    | dot _ h2 => rcases numberEnd_kind h2 with h3 | h3 <;> cases h3
  · rintro ⟨q, t, hq, rfl, hb⟩
    have h2 := (stringEnd_body hq hb).1
    have h3 : idStart U q = false ∧ q.isDigit = false ∧ q ≠ '\\' := by
      rcases hq with rfl | rfl <;> refine ⟨?_, by decide, by decide⟩ <;> rw [idStart_ascii (by decide)] <;> decide
    have h4 : (decide (q = '"') || decide (q = '\'')) = true := by simpa using hq
    refine alone_of ?_ ?_
    · simp [token, h3.1, h3.2.1, h3.2.2, hq, h2]
    · rcases hq with rfl | rfl <;>
        refine ⟨by simp [headIs, isLineTerminator, isWhitespace], by simp [List.isPrefixOf],
          by simp [List.isPrefixOf], by simp [List.isPrefixOf],
          fun _ => by simp [List.isPrefixOf]⟩

example : StringBody '"' "a'\\\"\\\r\nb\"".toList := by
  repeat' first
    | exact .close
    | refine .char (by decide) (by decide) (by decide) (by decide) ?_
    | refine .crlf ?_
    | refine .escape (by decide) ?_

/-! ## Which regular expressions stand alone -/

theorem classChars_end {U : Unicode} {k : Text} (h : ClassChars k) (r : Text) :
    regexEnd U false true (k ++ ']' :: r) = regexEnd U false false r := by
  induction h with
  | nil => simp [regexEnd]
  | @char c k h1 h2 h3 _ ih =>
    rw [List.cons_append, regexEnd, if_neg h1, if_neg (by simp), ih,
      if_neg (by simp [h2] : ¬(decide (c = ']') && true) = true), h3]
    simp
  | @escape c k h1 _ ih => simp [regexEnd, h1, ih]

theorem regexChars_end {U : Unicode} {b : Text} (h : RegexChars b) (f : Text) :
    regexEnd U false false (b ++ '/' :: f) = wordEnd U f := by
  induction h with
  | nil => simp [regexEnd]
  | @char c k h1 h2 h3 h4 _ ih =>
    rw [List.cons_append, regexEnd, if_neg h1, if_neg (by simp [h2]), if_neg h3, if_neg (by simp), h4, ih]
    simp
  | @escape c k h1 _ ih => simp [regexEnd, h1, ih]
  | @set k r h1 _ ih =>
    rw [List.append_assoc, List.cons_append, regexEnd, if_neg (by decide), if_neg (by decide), if_pos rfl,
      List.cons_append, classChars_end h1, ih]

theorem end_classChars {U : Unicode} : ∀ {t : Text},
    (regexEnd U false true t = some [] → ∃ k r, t = k ++ ']' :: r ∧ ClassChars k ∧
      regexEnd U false false r = some []) ∧
    (regexEnd U true true t = some [] → ∃ k r, '\\' :: t = k ++ ']' :: r ∧ ClassChars k ∧
      regexEnd U false false r = some [])
  | [] => by simp [regexEnd]
  | c :: t => by
    obtain ⟨ih1, ih2⟩ := end_classChars (U := U) (t := t)
    constructor
    · intro h
      rw [regexEnd] at h
      split at h
      · rename_i hc
        subst hc
        exact ih2 h
      rename_i hb
      split at h
      · rename_i hc; simp at hc
      have other : ∀ _ : c ≠ ']', isLineTerminator c = false → regexEnd U false true t = some [] →
          ∃ k r, c :: t = k ++ ']' :: r ∧ ClassChars k ∧ regexEnd U false false r = some [] := by
        intro h1 h2 h3
        obtain ⟨k, r, e, h4, h5⟩ := ih1 h3
        exact ⟨c :: k, r, by rw [e]; rfl, .char hb h1 h2 h4, h5⟩
      split at h
      · rename_i hc
        subst hc
        exact other (by decide) (by decide) h
      split at h
      · rename_i hc
        simp at hc
        subst hc
        exact ⟨[], t, rfl, .nil, h⟩
      rename_i hc
      split at h
      · simp at h
      · rename_i hl
        exact other (by simpa using hc) (by simpa using hl) h
    · intro h
      rw [regexEnd] at h
      split at h
      · simp at h
      · rename_i hl
        obtain ⟨k, r, e, h4, h5⟩ := ih1 h
        exact ⟨'\\' :: c :: k, r, by rw [e]; rfl, .escape (by simpa using hl) h4, h5⟩

theorem end_regexChars {U : Unicode} : ∀ (n : Nat) {t : Text}, t.length ≤ n → regexEnd U false false t = some [] →
    ∃ b f, t = b ++ '/' :: f ∧ RegexChars b ∧ wordEnd U f = some []
  | _, [], _, h => by simp [regexEnd] at h
  | 0, _ :: _, hn, _ => by simp at hn
  | n + 1, c :: t, hn, h => by
    simp only [List.length_cons] at hn
    rw [regexEnd] at h
    split at h
    · rename_i hc
      subst hc
      cases t with
      | nil => simp [regexEnd] at h
      | cons d t =>
        rw [regexEnd] at h
        split at h
        · simp at h
        · rename_i hl
          simp only [List.length_cons] at hn
          obtain ⟨b, f, e, h1, h2⟩ := end_regexChars n (t := t) (by omega) h
          exact ⟨'\\' :: d :: b, f, by rw [e]; rfl, .escape (by simpa using hl) h1, h2⟩
    rename_i hb
    split at h
    · rename_i hc
      simp at hc
      subst hc
      exact ⟨[], t, rfl, .nil, h⟩
    rename_i hs
    split at h
    · rename_i hc
      subst hc
      obtain ⟨k, r, e, h1, h2⟩ := end_classChars.1 h
      have hr : r.length ≤ n := by
        have := congrArg List.length e
        simp at this
        omega
      obtain ⟨b, f, e', h3, h4⟩ := end_regexChars n hr h2
      exact ⟨'[' :: k ++ ']' :: b, f, by rw [e, e']; simp, .set h1 h3, h4⟩
    rename_i hk
    split at h
    · rename_i hc; simp at hc
    split at h
    · simp at h
    · rename_i hl
      obtain ⟨b, f, e, h1, h2⟩ := end_regexChars n (t := t) (by omega) h
      exact ⟨c :: b, f, by rw [e]; rfl, .char hb (by simpa using hs) hk (by simpa using hl) h1, h2⟩

theorem wordEnd_iff {U : Unicode} : ∀ {t : Text}, wordEnd U t = some [] ↔ ∀ c ∈ t, idPart U c = true
  | [] => by simp [wordEnd]
  | c :: t => by
    rw [wordEnd]
    by_cases hc : c = '\\'
    · subst hc
      have : idPart U '\\' = false := by rw [idPart_ascii (by decide)]; decide
      simp [this]
    · rw [if_neg hc]
      split
      · rename_i hp
        rw [wordEnd_iff (t := t)]
        simp [hp]
      · rename_i hp
        simp [hp]

/-- C69, the regular expressions: where one is asked for, a text is read as one regular expression exactly
when it is a slash, a body that does not start a comment, a slash, and characters of identifiers. -/
theorem C69_regexes (U : Unicode) (cs : Text) :
    Alone U .slashIsRegex .regex cs ↔ ∃ (b f : Text), cs = '/' :: b ++ '/' :: f ∧ RegexChars b ∧ b ≠ [] ∧
      b.head? ≠ some '*' ∧ ∀ c ∈ f, idPart U c = true := by
  constructor
  · intro h
    obtain ⟨-, ht, -, n1, n2, -⟩ := alone_inv h
    have hs := shape_of ht
    cases hs with
    | @regex r h1 h2 =>
      obtain ⟨b, f, rfl, h3, h4⟩ := end_regexChars r.length (Nat.le_refl _) h2
      refine ⟨b, f, rfl, h3, ?_, ?_, wordEnd_iff.1 h4⟩
      · rintro rfl
        simp [List.isPrefixOf] at n2
      · intro hb
        cases b with
        | nil => simp at hb
        | cons x b =>
          simp only [List.head?_cons, Option.some.injEq] at hb
          subst hb
          simp [List.isPrefixOf] at n1
    | digits _ h2 => rcases numberEnd_kind h2 with h3 | h3 <;> cases h3
    | dot _ h2 => rcases numberEnd_kind h2 with h3 | h3 <;> cases h3
  · rintro ⟨b, f, rfl, h1, h2, h3, h4⟩
    refine alone_of ?_ ?_
    · have e1 : idStart U '/' = false := by rw [idStart_ascii (by decide)]; decide
      have e2 : Char.isDigit '/' = false := by decide
      simp only [List.cons_append, token, e1, e2, Bool.false_eq_true, if_false]
      rw [regexChars_end h1, wordEnd_iff.2 h4]
      simp
    · cases b with
      | nil => exact absurd rfl h2
      | cons x b =>
        have hx : x ≠ '/' := by
          cases h1 with
          | char _ h _ _ _ => exact h
          | escape _ _ => decide
          | set _ _ => decide
        have hx' : x ≠ '*' := by simpa using h3
        refine ⟨by simp [headIs, isLineTerminator, isWhitespace], ?_, ?_, ?_, fun _ => ?_⟩
        · simp [List.isPrefixOf, Ne.symm hx']
        · simp [List.isPrefixOf, Ne.symm hx]
        · simp [List.isPrefixOf]
        · simp [List.isPrefixOf]

/-! ## A case that meets the hypotheses -/

/-- No characters beyond ASCII in identifiers. -/
def asciiOnly : Unicode := ⟨fun _ => false, fun _ => false⟩

/-- Accents are parts of identifiers. -/
def accents : Unicode := ⟨fun c => c = 'é', fun c => c = 'é'⟩

/-- `return a+ ++b- -.5?.5:0x1F.x/ /[/]\//g in`, newline, `-- >"'"`, newline, `<! --é` -/
def sample : List Item :=
  [.word false ['r', 'e', 't', 'u', 'r', 'n'], .word true ['a'], .punct ['+'], .punct ['+', '+'],
   .word false ['b'], .punct ['-'], .punct ['-'], .number ['.', '5'], .punct ['?'], .number ['.', '5'],
   .punct [':'], .number ['0', 'x', '1', 'F'], .punct ['.'], .word false ['x'], .punct ['/'],
   .regex ['/', '[', '/', ']', '\\', '/', '/', 'g'], .word false ['i', 'n'], .newline, .space,
   .punct ['-', '-'], .punct ['>'], .string ['"', '\'', '"'], .newline, .punct ['<'], .punct ['!'],
   .punct ['-', '-'], .word false ['é'], .bigint ['1', '2'], .number ['1', 'e', '+', '5'], .punct ['.'],
   .word false ['x']]

/-- The modes in which these are asked for. -/
def sampleModes : List Mode :=
  List.replicate 15 .standard ++ [.slashIsRegex] ++ List.replicate 12 .standard

/-- Check each token on its own. -/
macro "tokens" : tactic => `(tactic|
  repeat' first
    | exact Tokens.nil
    | refine Tokens.blank rfl ?_
    | refine Tokens.tok rfl (by simp [AskedFor]) (by unfold Alone; decide +kernel) ?_)

theorem sample_tokens : Tokens accents sample sampleModes := by
  unfold sample sampleModes
  simp only [List.replicate, List.cons_append, List.nil_append]
  tokens

theorem sample_ordered : Ordered apart true sample := by
  simp [Ordered, sample, plain, opensComment, apart, mayFollow, lineStartAfter, takesDot, hasFlags]
  decide

example : emit sample = "return a+ ++b- -.5?.5:0x1F.x/ /[/]\\//g in\n -- >\"'\"\n<! --é 12n 1e+5.x".toList := by
  decide +kernel

example : lex accents sampleModes (emit sample) = some (tokensOf false sample) :=
  C69_any_order_partial accents sample sampleModes sample_tokens sample_ordered

/-- `({a:[...b]})=>!-c`, newline, `d<!e` -/
def sampleGrammar : List Item :=
  [.punct ['('], .punct ['{'], .word false ['a'], .punct [':'], .punct ['['], .punct ['.', '.', '.'],
   .word false ['b'], .punct [']'], .punct ['}'], .punct [')'], .punct ['=', '>'], .punct ['!'],
   .punct ['-'], .word false ['c'], .newline, .word false ['d'], .punct ['<'], .punct ['!'],
   .word false ['e']]

example : lex asciiOnly (List.replicate 18 .standard) (emit sampleGrammar) =
    some (tokensOf false sampleGrammar) :=
  C69_tokens_partial _ _ _
    (by unfold sampleGrammar; simp only [List.replicate]; tokens)
    (by
      simp [Ordered, sampleGrammar, plain, opensComment, mayFollow, lineStartAfter, punctAfter, enders,
        starters, closers])

/-! ## Where tokens run together -/

/-- Tokens, each of which the lexer reads when it stands alone, that are not read back. -/
def RunsTogether (U : Unicode) (is : List Item) (ms : List Mode) : Prop :=
  Tokens U is ms ∧ lex U ms (emit is) ≠ some (tokensOf false is)

/-- C69 fails: `a < !--b` is written as `a<!--b`, of which only `a` is read, since the lexer takes `<!--`
for the start of a comment anywhere and the emitter separates it only at the start of a line
(emit-js/src/emitter.rs:692-706, parse-js/src/lex/mod.rs:495, 1091). -/
theorem C69_html_comment_violated :
    RunsTogether asciiOnly [.word false ['a'], .punct ['<'], .punct ['!'], .punct ['-', '-'], .word false ['b']]
      (List.replicate 5 .standard) ∧
    lex asciiOnly [.standard] (emit [.word false ['a'], .punct ['<'], .punct ['!'], .punct ['-', '-'],
      .word false ['b']]) = some [⟨.word, ['a'], false⟩] := by
  refine ⟨⟨?_, by decide +kernel⟩, by decide +kernel⟩
  simp only [List.replicate]; tokens

/-- C69 fails: `/x/ in b` is written as `/x/in b`, which is read as `/x/` with the flags `in`, followed by
`b`. -/
theorem C69_regex_violated :
    RunsTogether asciiOnly [.regex ['/', 'x', '/'], .word false ['i', 'n'], .word false ['b']]
      [.slashIsRegex, .standard, .standard] ∧
    lex asciiOnly [.slashIsRegex, .standard]
      (emit [.regex ['/', 'x', '/'], .word false ['i', 'n'], .word false ['b']]) =
      some [⟨.regex, ['/', 'x', '/', 'i', 'n'], false⟩, ⟨.word, ['b'], false⟩] := by
  refine ⟨⟨?_, by decide +kernel⟩, by decide +kernel⟩
  tokens

/-- C69 fails: the member `x` of the integer 1, as emit-js/src/hir.rs:1727-1752 writes it, is read as the
number `1.` followed by `x`. (emit-js/src/expr_js.rs:329-336 writes a second dot.) -/
theorem C69_integer_member_violated :
    RunsTogether asciiOnly [.number ['1'], .punct ['.'], .word false ['x']] (List.replicate 3 .standard) ∧
    lex asciiOnly [.standard, .standard] (emit [.number ['1'], .punct ['.'], .word false ['x']]) =
      some [⟨.number, ['1', '.'], false⟩, ⟨.word, ['x'], false⟩] := by
  refine ⟨⟨?_, by decide +kernel⟩, by decide +kernel⟩
  simp only [List.replicate]; tokens

/-- C69 fails: `typeof` followed by the identifier `é` is written as the one word `typeofé` when the
identifier is written by `write_str`, as emit-js/src/expr.rs:140, 501 does. -/
theorem C69_unicode_identifier_violated :
    RunsTogether accents [.word true ['t', 'y', 'p', 'e', 'o', 'f'], .word true ['é']]
      [.standard, .standard] ∧
    lex accents [.standard] (emit [.word true ['t', 'y', 'p', 'e', 'o', 'f'], .word true ['é']]) =
      some [⟨.word, ['t', 'y', 'p', 'e', 'o', 'f', 'é'], false⟩] := by
  refine ⟨⟨?_, by decide +kernel⟩, by decide +kernel⟩
  tokens

/-- C69 fails for TypeScript: the assignment `a! = b` is written as `a!=b`, a comparison
(emit-js/src/expr_js.rs:151-154). -/
theorem C69_non_null_violated :
    RunsTogether asciiOnly [.word false ['a'], .punct ['!'], .punct ['='], .word false ['b']]
      (List.replicate 4 .standard) ∧
    lex asciiOnly (List.replicate 3 .standard)
      (emit [.word false ['a'], .punct ['!'], .punct ['='], .word false ['b']]) =
      some [⟨.word, ['a'], false⟩, ⟨.punct, ['!', '='], false⟩, ⟨.word, ['b'], false⟩] := by
  refine ⟨⟨?_, by decide +kernel⟩, by decide +kernel⟩
  simp only [List.replicate]; tokens

end Verif.Lex
