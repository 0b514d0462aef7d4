import Verif.Escape.Chars
/-!
# C35, C36, C63, C64: string and template literals
-/

namespace Verif.Escape

/-! ## Helpers about whole tokens -/

theorem litStrVal_quoted {q : Nat} {body : Text} {us : List Nat}
    (h : decodeLiteral16 body false = .ok us) :
    litStrVal (q :: body ++ [q]) = some ⟨us, fromUtf16Lossy us, findLegacy body⟩ := by
  unfold litStrVal
  rw [List.cons_append]
  have h1 : (q :: (body ++ [q])).getLast? = some q := by
    rw [← List.cons_append]; exact List.getLast?_concat
  have h2 : ((q :: (body ++ [q])).take ((q :: (body ++ [q])).length - 1)).drop 1 = body := by
    rw [← List.cons_append, List.length_append, List.length_singleton, Nat.add_sub_cancel,
      List.take_left' rfl]
    rfl
  simp only [h1, h2, beq_self_eq_true, if_true, h]

theorem token_body {q : Nat} {a b : Text} (h : q :: a ++ [q] = q :: b ++ [q]) : a = b := by
  simpa using h

theorem highOctal_token {q : Nat} {body : Text} (h : HighOctal body) : HighOctal (q :: body ++ [q]) := by
  obtain ⟨pre, a, b, c, post, rfl, hr⟩ := h
  exact ⟨q :: pre, a, b, c, post ++ [q], by simp, hr⟩

/-! ## C63: reading string literals -/

/-- **C63.** Every string literal of ECMA-262, legacy escapes included, is one token of exactly its text
whatever follows it; its value is the value ECMA-262 gives it; and a legacy escape is reported exactly for
the literals strict code does not have. The condition excludes the octal escapes of
`C63_octal_violated`. -/
theorem C63_reads (token rest : Text) (units : List Nat) (h : StringLiteral true token rest units)
    (hh : ¬ HighOctal token) :
    lexString (token ++ rest) = ⟨.string, token, rest⟩ ∧
    ∃ legacy, litStrVal token = some ⟨units, fromUtf16Lossy units, legacy⟩ ∧
      (legacy = false ↔ StringLiteral false token rest units) := by
  obtain ⟨q, body, hq, rfl, hs⟩ := h
  have hd := delimited_quote hq rest
  have hs0 := chars_restrict hd hs
  refine ⟨?_, findLegacy body, ?_, ?_⟩
  · have := lexStr_chars hq rest hs0
    simp only [lexString, List.cons_append, List.append_assoc, List.nil_append, this]
    rfl
  · exact litStrVal_quoted (decode16_complete hs0 (fun h => hh (highOctal_token h)) _ (Nat.le_refl _))
  · constructor
    · intro hl
      exact ⟨q, body, hq, rfl, chars_extend hd (chars_upgrade hs0 hl)⟩
    · rintro ⟨q', body', hq', he, hs'⟩
      simp only [List.cons_append, List.cons.injEq] at he
      obtain ⟨rfl, he⟩ := he
      obtain rfl : body = body' := by simpa using he
      exact chars_strict_legacy (chars_restrict (delimited_quote hq rest) hs')

/-- **C63, strict code.** Without legacy escapes there is no exception: every string literal of strict code
is read as one token with the value ECMA-262 gives it. -/
theorem C63_reads_strict (token rest : Text) (units : List Nat) (h : StringLiteral false token rest units) :
    lexString (token ++ rest) = ⟨.string, token, rest⟩ ∧
    litStrVal token = some ⟨units, fromUtf16Lossy units, false⟩ := by
  obtain ⟨q, body, hq, rfl, hs⟩ := h
  have hs0 := chars_restrict (delimited_quote hq rest) hs
  refine ⟨?_, ?_⟩
  · have := lexStr_chars hq rest (chars_weaken hs0)
    simp only [lexString, List.cons_append, List.append_assoc, List.nil_append, this]
    rfl
  · rw [litStrVal_quoted (decode16_strict hs0 _ (Nat.le_refl _)), chars_strict_legacy hs0]

/-- **C63, the other direction.** Whatever the reader accepts is a string literal of ECMA-262, of exactly
the token's text and of the value returned; all other sources are syntax errors. The conditions exclude
`C63_lone_quote_violated` and `C63_octal_violated`. -/
theorem C63_sound (q : Nat) (src : Text) (hq : q = 34 ∨ q = 39) (v : StrVal)
    (h : litStrVal (lexString (q :: src)).text = some v) (h1 : (lexString (q :: src)).text ≠ [q])
    (hh : ¬ HighOctal (lexString (q :: src)).text) :
    (lexString (q :: src)).kind = .string ∧
    q :: src = (lexString (q :: src)).text ++ (lexString (q :: src)).rest ∧
    StringLiteral true (lexString (q :: src)).text (lexString (q :: src)).rest v.units ∧
    v.value = fromUtf16Lossy v.units ∧
    (v.legacy = false ↔
      StringLiteral false (lexString (q :: src)).text (lexString (q :: src)).rest v.units) := by
  rcases scan_split q src with hs | ⟨b, rest, rfl, hs1, hs2⟩
  · -- no closing quote
    exfalso
    have he := scan_eof hq false src hs
    have ht : (lexString (q :: src)).text = q :: src := by simp [lexString, he, Lexed.push]
    rw [ht] at h h1
    unfold litStrVal at h
    simp only at h
    split at h
    · simp at h
    · rename_i us hus
      split at h
      · rename_i hc
        rw [if_pos hc] at hus
        rw [beq_iff_eq] at hc
        have hne : src ≠ [] := by rintro rfl; exact h1 rfl
        rw [List.getLast?_cons_of_ne_nil hne] at hc
        have hlast : src = src.dropLast ++ [q] := by
          obtain ⟨x, hx⟩ := List.getLast?_eq_some_iff.1 hc
          rw [hx]; simp
        have hbody : ((q :: src).take ((q :: src).length - 1)).drop 1 = src.dropLast := by
          rw [List.length_cons, Nat.add_sub_cancel, List.dropLast_eq_take]
          cases src with
          | nil => exact absurd rfl hne
          | cons x xs => simp
        rw [hbody] at hus
        have hcut := decode16_cut _ (Nat.le_refl _) hus
        rw [hlast] at hs
        have hs' := scan_unquoted hs
        have hm := cut_scan hq hcut hs'
        generalize hsc : scan q ⟨.normal, false, false⟩ src.dropLast = st at hs' hm
        rw [scan_append, hsc] at hs
        obtain ⟨mode, line, quoted⟩ := st
        have q92 : q ≠ 92 := by omega
        have q10 : q ≠ 10 := by omega
        cases mode with
        | back => exact hm.1 rfl
        | normal => simp [scan, step, q92] at hs
        | backCr => simp [scan, step, q92, q10] at hs
      · simp at h
  · have hlex := scan_ok hq false b rest hs1 hs2
    have hl : lexString (q :: (b ++ q :: rest)) =
        ⟨if (scan q ⟨.normal, false, false⟩ b).line then .invalid else .string, q :: b ++ [q], rest⟩ := by
      simp only [lexString, hlex]; rfl
    rw [hl] at h hh ⊢
    simp only at h hh ⊢
    have hdec : ∃ us, decodeLiteral16 b false = .ok us := by
      cases hx : decodeLiteral16 b false with
      | ok us => exact ⟨us, rfl⟩
      | error e =>
        exfalso
        unfold litStrVal at h
        rw [List.cons_append] at h
        have h1 : (q :: (b ++ [q])).getLast? = some q := by
          rw [← List.cons_append]; exact List.getLast?_concat
        have h2 : ((q :: (b ++ [q])).take ((q :: (b ++ [q])).length - 1)).drop 1 = b := by
          rw [← List.cons_append, List.length_append, List.length_singleton, Nat.add_sub_cancel,
            List.take_left' rfl]
          rfl
        simp only [h1, h2, beq_self_eq_true, if_true, hx] at h
        exact absurd h (by simp)
    obtain ⟨us, hus⟩ := hdec
    rw [litStrVal_quoted hus, Option.some.injEq] at h
    subst h
    have hcut := decode16_cut _ (Nat.le_refl _) hus
    have hm := cut_scan hq hcut hs1
    have hhb : ¬ HighOctal b := fun h => hh (highOctal_token h)
    have hch := cut_chars hq hcut hs1 hhb
    have hd := delimited_quote hq rest
    refine ⟨by rw [hm.2]; rfl, by simp, ⟨q, b, hq, rfl, chars_extend hd hch⟩, rfl, ?_⟩
    constructor
    · intro hlg
      exact ⟨q, b, hq, rfl, chars_extend hd (chars_upgrade hch hlg)⟩
    · rintro ⟨q', body', hq', he, hs'⟩
      simp only [List.cons_append, List.cons.injEq] at he
      obtain ⟨rfl, he⟩ := he
      obtain rfl : b = body' := by simpa using he
      exact chars_strict_legacy (chars_restrict hd hs')

/-- `"a\n\x41\u{1F600}\0"` followed by `;`. -/
def sampleLiteral : Text :=
  [34, 97, 92, 110, 92, 120, 52, 49, 92, 117, 123, 49, 70, 54, 48, 48, 125, 92, 48, 34]

/- The hypotheses of `C63_reads` and `C63_reads_strict` are met by a literal with five kinds of characters. -/
example : StringLiteral false sampleLiteral [59] [97, 10, 65, 0xD83D, 0xDE00, 0] := by
  refine ⟨34, [97, 92, 110, 92, 120, 52, 49, 92, 117, 123, 49, 70, 54, 48, 48, 125, 92, 48], .inl rfl, rfl, ?_⟩
  have hx : ∀ c, HexDigit c ↔ isHex c = true := fun c => (isHex_iff c).symm
  refine StringChars.char (us := [10, 65, 0xD83D, 0xDE00, 0]) (by decide) (by decide) (by decide) (by decide) ?_
  refine StringChars.escape (e := [110]) (u := [10]) (us := [65, 0xD83D, 0xDE00, 0]) (.single (by decide)) ?_
  refine StringChars.escape (e := [120, 52, 49]) (u := [65]) (us := [0xD83D, 0xDE00, 0])
    (.hex ((hx _).2 (by decide)) ((hx _).2 (by decide))) ?_
  refine StringChars.escape (e := [117, 123, 49, 70, 54, 48, 48, 125]) (u := [0xD83D, 0xDE00]) (us := [0]) ?_ ?_
  · refine EscapeSeq.codePoint (ds := [49, 70, 54, 48, 48]) (by decide) ?_ (by decide)
    simp only [hx]
    decide
  · refine StringChars.escape (e := [48]) (u := [0]) (us := []) (.null ?_) .done
    intro c hc
    simp only [List.nil_append, List.head?_cons, Option.mem_def, Option.some.injEq] at hc
    unfold DecimalDigit
    omega
example : (lexString (sampleLiteral ++ [59])).text ≠ [34] ∧
    litStrVal (lexString (sampleLiteral ++ [59])).text ≠ none := by decide +kernel
example : ¬ HighOctal [34, 92, 55, 55, 34] := by
  rintro ⟨pre, a, b, c, post, h, _, _, hb, hc⟩
  unfold OctalDigit at hb hc
  rcases pre with _ | ⟨x, _ | ⟨y, _ | ⟨z, pre⟩⟩⟩ <;> simp at h
  · omega
  · have := congrArg List.length h.2.2.2; simp at this; omega

/-- **C63 is violated** by octal escapes above `\377`: `"\400"` is, by ECMA-262, a space followed by `0`,
and is read as U+0100. -/
theorem C63_octal_violated :
    StringLiteral true [34, 92, 52, 48, 48, 34] [] [32, 48] ∧
    (litStrVal [34, 92, 52, 48, 48, 34]).map (·.units) = some [256] := by
  refine ⟨⟨34, [92, 52, 48, 48], .inl rfl, rfl, ?_⟩, by decide +kernel⟩
  refine StringChars.escape (e := [52, 48]) (u := [32]) (us := [48])
    (.octal2High rfl (by unfold OctalDigit; omega) (by omega) (by unfold OctalDigit; omega)) ?_
  exact StringChars.char (us := []) (by decide) (by decide) (by decide) (by decide) .done

/-- **C63 is violated** by a lone quote at the end of the source: it is read as the empty string, although no
string literal begins there. -/
theorem C63_lone_quote_violated :
    litStrVal (lexString [34]).text = some ⟨[], [], false⟩ ∧
    ∀ token rest units, token ++ rest = [34] → ¬ StringLiteral true token rest units := by
  refine ⟨by decide +kernel, ?_⟩
  rintro token rest units h ⟨q, body, _, rfl, _⟩
  have := congrArg List.length h
  simp at this

/-! ## C35: emitted string literals -/

theorem emitString_cases (value : Text) (style : QuoteStyle) (minify : Bool) :
    ∃ q, (q = 34 ∨ q = 39) ∧ emitString value style minify = q :: escapeString q value ++ [q] := by
  unfold emitString
  cases style with
  | double => exact ⟨34, .inl rfl, rfl⟩
  | single => exact ⟨39, .inr rfl, rfl⟩
  | auto =>
    simp only
    split
    · exact ⟨39, .inr rfl, rfl⟩
    · exact ⟨34, .inl rfl, rfl⟩

/-- **C35.** For every string, quote style and mode, what is emitted is by the grammar of ECMA-262 (strict
code) one string literal, whatever follows it, and its value is the string. -/
theorem C35_emitted (value rest : Text) (style : QuoteStyle) (minify : Bool) :
    StringLiteral false (emitString value style minify) rest (utf16s value) := by
  obtain ⟨q, hq, he⟩ := emitString_cases value style minify
  exact ⟨q, _, hq, he, chars_extend (delimited_quote hq rest) (emits_chars (emits_escapeString hq) value)⟩

/-- **C35.** The same for the string literals the minifier writes. -/
theorem C35_minifier (value rest : Text) : StringLiteral false (minifyString value) rest (utf16s value) :=
  ⟨34, _, .inl rfl, rfl, chars_extend (delimited_quote (.inl rfl) rest) (emits_chars emits_minify value)⟩

theorem normalise_emits {q : Nat} {f : Text → Text} (h : Emits q f) (value : Text) :
    normaliseString (q :: f value ++ [q]) = some value := by
  unfold normaliseString
  have h1 : ¬ Names.byteLen (q :: f value ++ [q]) < 2 := by
    have := Names.lenUtf8_pos q
    rw [List.cons_append, Names.byteLen_cons, Names.byteLen_append, Names.byteLen_cons]
    omega
  have h2 : ((q :: f value ++ [q]).drop 1).dropLast = f value := by simp
  rw [if_neg h1, h2, decodeLiteral, emits_decode h value _ (Nat.le_refl _)]

/-- **C35.** The repository's own lexer and decoders take an emitted literal as one token whatever follows
it, and read the original string back. -/
theorem C35_roundtrip (value rest : Text) (style : QuoteStyle) (minify : Bool) (hv : ∀ c ∈ value, Scalar c) :
    lexString (emitString value style minify ++ rest) = ⟨.string, emitString value style minify, rest⟩ ∧
    litStrVal (emitString value style minify) = some ⟨utf16s value, value, false⟩ ∧
    normaliseString (emitString value style minify) = some value := by
  have h := C63_reads_strict _ rest _ (C35_emitted value rest style minify)
  rw [fromUtf16Lossy_utf16s hv] at h
  obtain ⟨q, hq, he⟩ := emitString_cases value style minify
  exact ⟨h.1, h.2, by rw [he]; exact normalise_emits (emits_escapeString hq) value⟩

/-- **C35.** The same for the minifier's literals. -/
theorem C35_minifier_roundtrip (value rest : Text) (hv : ∀ c ∈ value, Scalar c) :
    lexString (minifyString value ++ rest) = ⟨.string, minifyString value, rest⟩ ∧
    litStrVal (minifyString value) = some ⟨utf16s value, value, false⟩ ∧
    normaliseString (minifyString value) = some value := by
  have h := C63_reads_strict _ rest _ (C35_minifier value rest)
  rw [fromUtf16Lossy_utf16s hv] at h
  exact ⟨h.1, h.2, normalise_emits emits_minify value⟩

/- NUL before a digit, quotes, line separators and an emoji. -/
example : ∀ c ∈ [0, 49, 34, 39, 0x2028, 10, 7, 0x1F600], Scalar c := by unfold Scalar; decide
example : emitString [0, 49, 34, 39, 39, 0, 10] .auto true =
    [34, 92, 120, 48, 48, 49, 92, 34, 39, 39, 92, 48, 92, 110, 34] := by decide +kernel
example : emitString [34, 34, 39] .auto true = [39, 34, 34, 92, 39, 39] := by decide +kernel

/-! ## C64: reading templates -/

theorem lexTpl_closing (isEnd : Bool) (after : Text) :
    lexTpl (closing isEnd ++ after) = ⟨partKind isEnd, closing isEnd, after⟩ := by
  cases isEnd <;> (rw [lexTpl.eq_def]; simp [closing, partKind])

theorem closes_closing (isEnd : Bool) (after : Text) : Closes (closing isEnd ++ after) := by
  cases isEnd
  · exact .inr ⟨after, rfl⟩
  · exact .inl ⟨after, rfl⟩

theorem content_plain {cs rest : Text} (isEnd : Bool) (hr : Tpl cs (closing isEnd ++ rest)) :
    templateContent (cs ++ closing isEnd) isEnd = some cs := by
  have h0 : ¬ ((cs ++ closing isEnd).head? = some 96 ∧ (cs ++ closing isEnd).length > 1) := by
    rintro ⟨h1, h2⟩
    cases hr with
    | done => cases isEnd <;> simp [closing] at h1 h2
    | char g1 g2 g3 g4 => simp at h1; exact g2 h1
    | dollar g1 g2 => simp at h1
    | pair g1 => simp at h1
  unfold templateContent
  simp only [if_neg h0]
  cases isEnd
  · simp only [closing, Bool.false_eq_true, if_false]
    rw [if_pos (by simp), if_neg (by omega)]
    simp
  · simp only [closing, if_true]
    rw [if_pos (by simp), if_neg (by omega)]
    simp

theorem content_head {cs : Text} (isEnd : Bool) :
    templateContent (96 :: cs ++ closing isEnd) isEnd = some cs := by
  have h0 : (96 :: cs ++ closing isEnd).head? = some 96 ∧ (96 :: cs ++ closing isEnd).length > 1 := by
    constructor
    · rfl
    · cases isEnd <;> simp [closing]
  unfold templateContent
  simp only [if_pos h0]
  cases isEnd
  · simp only [closing, Bool.false_eq_true, if_false]
    rw [if_pos (by
      rw [List.isSuffixOf_iff_suffix]; exact ⟨96 :: cs, by simp⟩), if_neg (by simp)]
    simp only [List.length_append, List.length_cons, List.length_nil, Nat.add_sub_cancel, Option.some.injEq]
    rw [show 96 :: cs ++ [36, 123] = (96 :: cs) ++ [36, 123] from rfl, List.take_left' (by simp)]
    rfl
  · simp only [closing, if_true]
    rw [if_pos (by rw [List.getLast?_concat]), if_neg (by simp)]
    simp only [List.length_append, List.length_cons, List.length_nil, Nat.add_sub_cancel, Option.some.injEq]
    rw [show 96 :: cs ++ [96] = (96 :: cs) ++ [96] from rfl, List.take_left' (by simp)]
    rfl

theorem chars_tpl {cs rest : Text} {us : List Nat} (h : TemplateChars cs rest us) : Tpl cs rest := by
  have safe : ∀ (e x r : Text), (∀ d ∈ e, Safe d) → Tpl x r → Tpl (e ++ x) r := by
    intro e x r hs hx
    induction e with
    | nil => exact hx
    | cons d e ihe =>
      have hd := hs d List.mem_cons_self
      unfold Safe at hd
      exact .char hd.1 (by omega) (by omega) (ihe (fun y hy => hs y (List.mem_cons_of_mem _ hy)))
  induction h with
  | done => exact .done
  | char h1 h2 h3 h4 _ ih => exact .char h2 h1 h3 ih
  | dollar hn _ ih => exact .dollar hn ih
  | escape he _ ih =>
    rcases esc_plain he with ⟨c, e', rfl, hs, _⟩ | rfl
    · exact .pair (safe e' _ _ hs ih)
    · exact .pair (.char (by decide) (by decide) (by decide) ih)
  | line hc _ ih => exact .char (by omega) (by omega) (by omega) ih
  | cr hn _ ih => exact .char (by omega) (by omega) (by omega) ih
  | crlf _ ih =>
    exact .char (by omega) (by omega) (by omega) (.char (by omega) (by omega) (by omega) ih)

/-- **C64.** Every part of a template of ECMA-262 without CR, as head (after the opening backtick) and as
continuation (after `}`), is one token that ends exactly at its closing backtick or `${`, and its raw and
cooked strings are those of ECMA-262. -/
theorem C64_reads (isEnd tagged : Bool) (cs after : Text) (us : List Nat)
    (h : TemplateChars cs (closing isEnd ++ after) us) (hcr : 13 ∉ cs) :
    lexTemplate (96 :: cs ++ closing isEnd ++ after) = ⟨partKind isEnd, 96 :: cs ++ closing isEnd, after⟩ ∧
    lexTpl (cs ++ closing isEnd ++ after) = ⟨partKind isEnd, cs ++ closing isEnd, after⟩ ∧
    templatePart tagged (96 :: cs ++ closing isEnd) isEnd =
      some ⟨utf16s cs, some us, fromUtf16Lossy us, false⟩ ∧
    templatePart tagged (cs ++ closing isEnd) isEnd =
      some ⟨utf16s cs, some us, fromUtf16Lossy us, false⟩ := by
  have hc := closes_closing isEnd after
  have ht := chars_tpl h
  obtain ⟨hd, hl⟩ := tdecode_complete (closes_delimited hc) h hcr _ (Nat.le_refl _)
  have hlex : lexTpl (cs ++ closing isEnd ++ after) = ⟨partKind isEnd, cs ++ closing isEnd, after⟩ := by
    rw [List.append_assoc, lexTpl_chars hc h, lexTpl_closing]; rfl
  refine ⟨?_, hlex, ?_, ?_⟩
  · rw [lexTemplate, show (96 :: cs ++ closing isEnd ++ after).drop 1 = cs ++ closing isEnd ++ after from rfl,
      hlex]
    rfl
  · simp only [templatePart, content_head, decodeLiteral16, hd, hl, Bool.and_false, Bool.false_eq_true, if_false]
  · simp only [templatePart, content_plain isEnd ht, decodeLiteral16, hd, hl, Bool.and_false,
      Bool.false_eq_true, if_false]

theorem tpl_unique {isEnd : Bool} {after text : Text} {src : Text}
    (h : lexTpl src = ⟨partKind isEnd, text, after⟩) :
    ∃ cs, text = cs ++ closing isEnd ∧ src = text ++ after ∧ Tpl cs (closing isEnd ++ after) := by
  have hk : (lexTpl src).kind ≠ .invalid := by rw [h]; cases isEnd <;> simp [partKind]
  obtain ⟨cs, rest, h1, h2, h3, h4⟩ := lexTpl_sound src hk
  rw [h3] at h
  rcases h1 with ⟨r, rfl⟩ | ⟨r, rfl⟩
  · have e := lexTpl_closing true r
    simp only [closing, if_true, List.singleton_append] at e
    rw [e] at h
    simp only [Lexed.push, Lexed.mk.injEq] at h
    obtain ⟨k, t, a⟩ := h
    subst a
    cases isEnd with
    | false => simp [partKind] at k
    | true => exact ⟨cs, t.symm, by rw [h2, ← t]; simp, h4⟩
  · have e := lexTpl_closing false r
    simp only [closing, Bool.false_eq_true, if_false, List.cons_append, List.nil_append] at e
    rw [e] at h
    simp only [Lexed.push, Lexed.mk.injEq] at h
    obtain ⟨k, t, a⟩ := h
    subst a
    cases isEnd with
    | true => simp [partKind] at k
    | false => exact ⟨cs, t.symm, by rw [h2, ← t]; simp, h4⟩

/-- **C64, the other direction.** Whenever the lexer answers a template part, the part's text is some
characters and the closing, nothing is lost, and (without CR) the reader answers a cooked string without
complaint exactly when the characters are those of a template of ECMA-262, and then that string. -/
theorem C64_exact (isEnd tagged : Bool) (src text after : Text)
    (h : lexTpl src = ⟨partKind isEnd, text, after⟩) :
    ∃ cs, text = cs ++ closing isEnd ∧ src = text ++ after ∧
      (13 ∉ cs → ∀ us, (∃ v, templatePart tagged text isEnd = some v ∧ v.legacy = false ∧ v.cooked = some us) ↔
        TemplateChars cs (closing isEnd ++ after) us) := by
  obtain ⟨cs, rfl, h2, h3⟩ := tpl_unique h
  refine ⟨cs, rfl, h2, ?_⟩
  intro hcr us
  constructor
  · rintro ⟨v, hv, hl, hc⟩
    simp only [templatePart, content_plain isEnd h3] at hv
    split at hv
    · rename_i units hd
      simp only [Option.some.injEq] at hv
      subst hv
      simp only at hl hc
      simp only [hl, Bool.and_false, Bool.false_eq_true, if_false, Option.some.injEq] at hc
      subst hc
      exact cut_tpl (closes_closing isEnd after) (decode16_cut _ (Nat.le_refl _) hd) h3 hl hcr
    · split at hv
      · simp only [Option.some.injEq] at hv
        subst hv
        simp at hc
      · simp at hv
  · intro ht
    exact ⟨_, (C64_reads isEnd tagged cs after us ht hcr).2.2.2, rfl, rfl⟩

/-- **C64, tagged templates.** A tagged template never fails to read, and its cooked string is absent exactly
when the characters have no cooked value in ECMA-262. -/
theorem C64_tagged (isEnd : Bool) (cs after : Text)
    (h : lexTpl (cs ++ closing isEnd ++ after) = ⟨partKind isEnd, cs ++ closing isEnd, after⟩) (hcr : 13 ∉ cs) :
    ∃ v, templatePart true (cs ++ closing isEnd) isEnd = some v ∧ v.raw = utf16s cs ∧
      ∀ us, v.cooked = some us ↔ TemplateChars cs (closing isEnd ++ after) us := by
  obtain ⟨cs', h1, h2, h3⟩ := C64_exact isEnd true _ _ _ h
  obtain rfl := List.append_cancel_right h1
  obtain ⟨cs'', h4, -, h5⟩ := tpl_unique h
  obtain rfl := List.append_cancel_right h4
  have hc := content_plain isEnd h5
  cases hd : decodeLiteral16 cs true with
  | error e =>
    refine ⟨⟨utf16s cs, none, [], findLegacy cs⟩, by simp [templatePart, hc, hd], rfl, ?_⟩
    intro us
    constructor
    · simp
    · intro ht
      obtain ⟨v, hv, _, hcv⟩ := (h3 hcr us).2 ht
      simp only [templatePart, hc, hd, if_true, Option.some.injEq] at hv
      subst hv
      exact hcv
  | ok units =>
    refine ⟨⟨utf16s cs, if findLegacy cs then none else some units, fromUtf16Lossy units, findLegacy cs⟩,
      by simp [templatePart, hc, hd], rfl, ?_⟩
    intro us
    have hpart : templatePart true (cs ++ closing isEnd) isEnd =
        some ⟨utf16s cs, if findLegacy cs then none else some units, fromUtf16Lossy units, findLegacy cs⟩ := by
      simp [templatePart, hc, hd]
    rw [← h3 hcr us, hpart]
    constructor
    · intro hcu
      simp only at hcu
      split at hcu
      · simp at hcu
      · rename_i hl
        exact ⟨_, rfl, by simpa using hl, by simpa [hl] using hcu⟩
    · rintro ⟨v, hv, hl, hcu⟩
      simp only [Option.some.injEq] at hv
      subst hv
      exact hcu

/- `` `a$\n${ `` as a head and a continuation that ends the template. -/
example : TemplateChars [97, 36, 92, 110] (closing false ++ [120]) [97, 36, 10] := by
  refine TemplateChars.char (us := [36, 10]) (by decide) (by decide) (by decide)
    (by unfold LineTerminator; omega) ?_
  refine TemplateChars.dollar (us := [10]) ?_ ?_
  · intro c hc
    simp at hc
    omega
  · exact TemplateChars.escape (e := [110]) (u := [10]) (us := []) (.single (by decide)) .done
example : lexTpl [97, 92, 55, 96, 59] = ⟨partKind true, [97, 92, 55, 96], [59]⟩ := by decide +kernel
example : (templatePart true [97, 92, 55, 96] true).map (·.cooked) = some none := by decide +kernel

/-- **C64 is violated** by CR: ECMA-262 replaces CR LF and CR in templates by LF, in both the cooked and the
raw string; the reader keeps them. -/
theorem C64_cr_violated :
    TemplateChars [13, 10] (closing true) [10] ∧
    templatePart true ([13, 10] ++ closing true) true = some ⟨[13, 10], some [13, 10], [13, 10], false⟩ :=
  ⟨.crlf .done, by decide +kernel⟩

/-! ## C36: emitted templates -/

/-- **C36.** For every string, the emitted segment has, by the grammar of ECMA-262, that string as its value,
whatever follows it; in particular it has no unescaped backtick and no `${`. The repository's own reader
takes it as one part and reads the string back. -/
theorem C36_segment (s after : Text) (isEnd tagged : Bool) (hs : ∀ c ∈ s, Scalar c) :
    TemplateChars (emitSegment s) (closing isEnd ++ after) (utf16s s) ∧
    lexTpl (emitSegment s ++ closing isEnd ++ after) = ⟨partKind isEnd, emitSegment s ++ closing isEnd, after⟩ ∧
    (templatePart tagged (emitSegment s ++ closing isEnd) isEnd).map (fun v => (v.cooked, v.str, v.legacy)) =
      some (some (utf16s s), s, false) := by
  have h := segment_chars s (closing isEnd ++ after)
  have hr := C64_reads isEnd tagged _ after _ h (segment_no_cr s)
  rw [fromUtf16Lossy_utf16s hs] at hr
  exact ⟨h, hr.2.1, by rw [hr.2.2.2]; rfl⟩

/-- **C36.** A template emitted from the HIR is a template of ECMA-262 whose string parts have the values of
the HIR and whose substitutions are the emitted expressions, in order. -/
theorem C36_hir (head : Text) (spans : List (Text × Text)) (rest : Text) :
    TemplateLiteral (emitTemplateHir head spans) rest (utf16s head :: spans.map (fun p => utf16s p.2))
      (spans.map (·.1)) := by
  refine ⟨emitSegment head ++ spans.flatMap (fun p => [36, 123] ++ p.1 ++ [125] ++ emitSegment p.2) ++ [96] ++ rest,
    by simp [emitTemplateHir], ?_⟩
  induction spans generalizing head with
  | nil =>
    simp only [List.flatMap_nil, List.append_nil, List.map_nil, List.append_assoc, List.singleton_append]
    exact .last (segment_chars head _)
  | cons p ps ih =>
    have := TemplateTail.sub (cs := emitSegment head) (e := p.1) (segment_chars head _) (ih p.2)
    simpa using this

/-- The parts of a template in the syntax tree. -/
def toParts (head : Text) (spans : List (Text × Text)) : List Part :=
  .string head :: spans.flatMap (fun p => [.substitution p.1, .string p.2])

theorem emitParts_tail {len : Nat} (idx : Nat) (spans : List (Text × Text)) (hl : idx + 2 * spans.length = len)
    (h0 : 0 < idx) (hlast : ∀ p ∈ spans.getLast?, p.2.getLast? ≠ some 96)
    (hmid : ∀ p ∈ spans.dropLast, ¬ [36, 123] <:+ p.2) :
    emitPartsFrom len idx (spans.flatMap (fun p => [.substitution p.1, .string p.2])) =
      spans.flatMap (fun p => [36, 123] ++ p.1 ++ [125] ++ emitSegment p.2) := by
  induction spans generalizing idx with
  | nil => rfl
  | cons p ps ih =>
    simp only [List.length_cons] at hl
    have hi : (idx + 1 == 0) = false := by simp
    have hseg : cookedSegment p.2 (idx + 1 == 0) (idx + 1 + 1 == len) = p.2 := by
      simp only [cookedSegment, hi, Bool.false_eq_true, if_false]
      cases ps with
      | nil =>
        have : (idx + 1 + 1 == len) = true := by
          simp only [List.length_nil] at hl
          simp; omega
        simp only [this, if_true, stripBacktickSuffix]
        rw [if_neg (hlast p (by simp))]
      | cons q qs =>
        have : (idx + 1 + 1 == len) = false := by
          simp only [List.length_cons] at hl
          simp; omega
        simp only [this, Bool.false_eq_true, if_false, stripDollarBrace]
        rw [if_neg (by
          rw [List.isSuffixOf_iff_suffix]
          exact hmid p (by simp))]
    have hrec := ih (idx + 2) (by omega) (by omega) (by
      intro q hq
      cases ps with
      | nil => simp at hq
      | cons r rs => exact hlast q (by rw [List.getLast?_cons_of_ne_nil (by simp)]; exact hq)) (by
      intro q hq
      cases ps with
      | nil => simp at hq
      | cons r rs => exact hmid q (by rw [List.dropLast_cons_of_ne_nil (by simp)]; exact List.mem_cons_of_mem _ hq))
    simp only [List.flatMap_cons, List.cons_append, List.nil_append, emitPartsFrom, hseg, hrec]
    simp

/-- **C36, emission from the syntax tree, partial.** The same for templates emitted from the syntax tree,
provided that the first string does not begin and the last does not end with a backtick and that no other
string ends with `${`: the emitter takes these for delimiters and drops them (`C36_ast_violated`). Missing:
templates that contain such strings. -/
theorem C36_ast_partial (head : Text) (spans : List (Text × Text)) (rest : Text)
    (hfirst : head.head? ≠ some 96)
    (hlast : ∀ s ∈ (head :: spans.map (·.2)).getLast?, s.getLast? ≠ some 96)
    (hmid : ∀ s ∈ (head :: spans.map (·.2)).dropLast, ¬ [36, 123] <:+ s) :
    TemplateLiteral (emitTemplateAst (toParts head spans)) rest
      (utf16s head :: spans.map (fun p => utf16s p.2)) (spans.map (·.1)) := by
  have heq : emitTemplateAst (toParts head spans) = emitTemplateHir head spans := by
    have hlen : (toParts head spans).length = 1 + 2 * spans.length := by
      unfold toParts
      rw [List.length_cons]
      clear hfirst hlast hmid
      induction spans with
      | nil => rfl
      | cons p ps ih =>
        simp only [List.flatMap_cons, List.length_append, List.length_cons, List.length_nil] at ih ⊢
        omega
    have hb : stripBacktickPrefix head = head := by
      cases head with
      | nil => rfl
      | cons c cs =>
        have : c ≠ 96 := by simpa using hfirst
        unfold stripBacktickPrefix
        split
        · rename_i h; simp at h; omega
        · rfl
    have hseg : cookedSegment head (0 == 0) (0 + 1 == (toParts head spans).length) = head := by
      rw [hlen]
      simp only [cookedSegment, beq_self_eq_true, if_true, hb]
      cases spans with
      | nil =>
        simp only [List.length_nil, Nat.mul_zero, Nat.add_zero, Nat.zero_add, beq_self_eq_true, if_true,
          stripBacktickSuffix]
        rw [if_neg (hlast head (by simp))]
      | cons p ps =>
        have : (0 + 1 == 1 + 2 * (p :: ps).length) = false := by simp
        simp only [this, Bool.false_eq_true, if_false, stripDollarBrace]
        rw [if_neg (by
          rw [List.isSuffixOf_iff_suffix]
          exact hmid head (by simp))]
    have htail := emitParts_tail (len := (toParts head spans).length) 1 spans (by rw [hlen]) (by omega)
      (by
        intro p hp
        refine hlast p.2 ?_
        cases spans with
        | nil => simp at hp
        | cons q qs =>
          rw [List.getLast?_cons_of_ne_nil (by simp), List.getLast?_map]
          simp only [Option.mem_def] at hp ⊢
          rw [hp]; rfl)
      (by
        intro p hp
        refine hmid p.2 ?_
        cases spans with
        | nil => simp at hp
        | cons q qs =>
          rw [List.dropLast_cons_of_ne_nil (by simp), ← List.map_dropLast]
          exact List.mem_cons_of_mem _ (List.mem_map_of_mem hp))
    unfold emitTemplateAst
    generalize hL : (toParts head spans).length = L at hseg htail ⊢
    unfold toParts
    simp only [emitPartsFrom, hseg, htail, emitTemplateHir]
    simp
  rw [heq]
  exact C36_hir head spans rest

/- Three parts and two substitutions meet the conditions. -/
example : ([97, 96, 98] : Text).head? ≠ some 96 ∧
    (∀ s ∈ ([97, 96, 98] :: [([120], [36, 36]), ([121], [])].map (fun p : Text × Text => p.2)).getLast?,
      s.getLast? ≠ some 96) ∧
    (∀ s ∈ ([97, 96, 98] :: [([120], [36, 36]), ([121], [])].map (fun p : Text × Text => p.2)).dropLast,
      ¬ [36, 123] <:+ s) := by decide +kernel

/-- **C36 is violated** by emission from the syntax tree: the template `` `\`` `` has the value `` ` ``; the
reader puts that string in the tree; what is emitted for the tree is the empty template. Likewise
`` `\${${x}` `` is emitted without its first string. -/
theorem C36_ast_violated :
    (templatePart false (lexTemplate [96, 92, 96, 96]).text true).map (·.str) = some [96] ∧
    TemplateLiteral (emitTemplateAst [.string [96]]) [] [[]] [] ∧
    (templatePart false (lexTemplate [96, 92, 36, 123, 36, 123, 120, 125, 96]).text false).map (·.str) =
      some [36, 123] ∧
    TemplateLiteral (emitTemplateAst (toParts [36, 123] [([120], [])])) [] [[], []] [[120]] := by
  refine ⟨by decide +kernel, ⟨[96], by decide +kernel, .last (cs := []) .done⟩, by decide +kernel,
    ⟨[36, 123, 120, 125, 96], by decide +kernel, ?_⟩⟩
  exact TemplateTail.sub (cs := []) (e := [120]) .done (.last (cs := []) .done)

/-- **C36 is violated** for the raw strings of tagged templates: the tree keeps the cooked string only, so
`` t`\x41` ``, whose raw string is `\x41`, is emitted with the raw string `A`. -/
theorem C36_tagged_violated :
    (templatePart true (lexTemplate [96, 92, 120, 52, 49, 96]).text true).map (fun v => (v.raw, v.str)) =
      some ([92, 120, 52, 49], [65]) ∧
    emitTemplateAst [.string [65]] = [96, 65, 96] ∧
    (templatePart true (lexTemplate [96, 65, 96]).text true).map (·.raw) = some [65] := by
  decide +kernel

end Verif.Escape
