import Verif.Lex.Token

/-! # What the emitter writes before and behind a token -/

namespace Verif.Lex

/-- The boundary in front of an item. -/
def leadingOf : Item → Leading
  | .word false _ => .word
  | .number _ | .bigint _ => .number
  | .word true (c :: _) | .string (c :: _) | .regex (c :: _) => leadingChar c
  | .punct ['+'] | .punct ['+', '+'] => .plus
  | .punct ['-'] | .punct ['-', '-'] => .minus
  | .punct (c :: _) => if c = '/' then .slash else if c = '*' then .star else .other
  | _ => .none

/-- The boundary behind an item. -/
def trailingOf : Item → Boundary
  | .word false _ | .bigint _ => .word
  | .number _ => .number
  | .word true cs | .string cs | .regex cs => trailingChar cs.reverse
  | .punct cs => trailingChar cs.reverse
  | _ => .none

theorem advance_append (h : HtmlStart) (a b : Text) :
    advanceHtml h (a ++ b) = advanceHtml (advanceHtml h a) b := by simp [advanceHtml]

theorem starts_append_n (h : HtmlStart) (a : Text) : startsHtml h (a ++ ['n']) = startsHtml h a := by
  induction a generalizing h with
  | nil => cases h <;> decide
  | cons c r ih => simp [startsHtml, ih]

theorem leadingChar_ne (c : Char) : leadingChar c ≠ .none := by
  unfold leadingChar
  repeat' split
  all_goals simp

theorem leadingOf_ne {i : Item} {k : Kind} {cs : Text} (h : i.lexeme = some (k, cs)) (hn : cs ≠ []) :
    leadingOf i ≠ .none := by
  cases i with
  | word b w =>
    simp only [Item.lexeme, Option.some.injEq, Prod.mk.injEq] at h
    obtain ⟨rfl, rfl⟩ := h
    cases b with
    | false => simp [leadingOf]
    | true =>
      cases w with
      | nil => exact absurd rfl hn
      | cons c r => exact leadingChar_ne c
  | number w => simp [leadingOf]
  | bigint w => simp [leadingOf]
  | string w =>
    simp only [Item.lexeme, Option.some.injEq, Prod.mk.injEq] at h
    obtain ⟨rfl, rfl⟩ := h
    cases w with
    | nil => exact absurd rfl hn
    | cons c r => exact leadingChar_ne c
  | regex w =>
    simp only [Item.lexeme, Option.some.injEq, Prod.mk.injEq] at h
    obtain ⟨rfl, rfl⟩ := h
    cases w with
    | nil => exact absurd rfl hn
    | cons c r => exact leadingChar_ne c
  | punct w =>
    simp only [Item.lexeme, Option.some.injEq, Prod.mk.injEq] at h
    obtain ⟨rfl, rfl⟩ := h
    cases w with
    | nil => exact absurd rfl hn
    | cons c r =>
      unfold leadingOf
      split <;> simp_all
      repeat' split
      all_goals simp
  | space => simp [Item.lexeme] at h
  | newline => simp [Item.lexeme] at h

/-- The characters written in front of a token. -/
def gap (st : State) (l : Leading) (cs : Text) : Text :=
  (if needsSpace st.trailing l then [' '] else []) ++
    (if startsHtml (advanceHtml st.html (if needsSpace st.trailing l then [' '] else [])) cs then [' ']
     else [])

theorem write_eq (st : State) (l : Leading) (t : Boundary) (cs : Text) (hl : l ≠ .none) :
    write st l t cs = (gap st l cs ++ cs, ⟨t, advanceHtml st.html (gap st l cs ++ cs)⟩) := by
  have h1 : (decide (l ≠ .none) && needsSpace st.trailing l) = needsSpace st.trailing l := by simp [hl]
  simp only [write, gap]
  have h2 : (l ≠ .none && needsSpace st.trailing l) = needsSpace st.trailing l := h1
  simp only [h2, advance_append]

theorem gap_bigint (st : State) (l : Leading) (ds : Text) : gap st l (ds ++ ['n']) = gap st l ds := by
  simp only [gap, starts_append_n]

/-- Every token is written with its boundaries, whatever method writes it. -/
theorem writeItem_eq (st : State) {i : Item} {k : Kind} {cs : Text} (h : i.lexeme = some (k, cs))
    (hn : cs ≠ []) (hb : k = .bigint → cs ≠ ['n']) :
    writeItem st i = (gap st (leadingOf i) cs ++ cs,
      ⟨trailingOf i, advanceHtml st.html (gap st (leadingOf i) cs ++ cs)⟩) := by
  have hl := leadingOf_ne h hn
  cases i with
  | word b w =>
    simp only [Item.lexeme, Option.some.injEq, Prod.mk.injEq] at h
    obtain ⟨rfl, rfl⟩ := h
    cases b with
    | false => simp only [writeItem, hn, if_false]; exact write_eq _ _ _ _ hl
    | true =>
      cases w with
      | nil => exact absurd rfl hn
      | cons c r => exact write_eq _ _ _ _ hl
  | number w =>
    simp only [Item.lexeme, Option.some.injEq, Prod.mk.injEq] at h
    obtain ⟨rfl, rfl⟩ := h
    simp only [writeItem, hn, if_false]; exact write_eq _ _ _ _ hl
  | bigint w =>
    simp only [Item.lexeme, Option.some.injEq, Prod.mk.injEq] at h
    obtain ⟨rfl, rfl⟩ := h
    have hw : w ≠ [] := by rintro rfl; exact hb rfl rfl
    simp only [writeItem, hw, if_false]
    rw [write_eq _ _ _ _ (by simp : Leading.number ≠ .none)]
    simp only [leadingOf, trailingOf, gap_bigint, List.append_assoc, advance_append]
  | string w =>
    simp only [Item.lexeme, Option.some.injEq, Prod.mk.injEq] at h
    obtain ⟨rfl, rfl⟩ := h
    cases w with
    | nil => exact absurd rfl hn
    | cons c r => exact write_eq _ _ _ _ hl
  | regex w =>
    simp only [Item.lexeme, Option.some.injEq, Prod.mk.injEq] at h
    obtain ⟨rfl, rfl⟩ := h
    cases w with
    | nil => exact absurd rfl hn
    | cons c r => exact write_eq _ _ _ _ hl
  | punct w =>
    simp only [Item.lexeme, Option.some.injEq, Prod.mk.injEq] at h
    obtain ⟨rfl, rfl⟩ := h
    cases w with
    | nil => exact absurd rfl hn
    | cons c r =>
      simp only [writeItem, writePunct]
      iterate 4
        split
        · rename_i he; rw [he, write_eq _ _ _ _ (by simp)]; simp [leadingOf, trailingOf, trailingChar]
      rename_i h1 h2 h3 h4
      have : leadingOf (.punct (c :: r)) = if c = '/' then .slash else if c = '*' then .star else .other := by
        unfold leadingOf
        split <;> simp_all
      rw [this] at hl ⊢
      exact write_eq _ _ _ _ hl
  | space => simp [Item.lexeme] at h
  | newline => simp [Item.lexeme] at h

/-- Texts behind an item: the next item if nothing is written in front of it, or a space or newline. -/
theorem writeAll_cases (U : Unicode) (st : State) (is : List Item) (ms : List Mode) (ht : Tokens U is ms) :
    writeAll st is = [] ∨ (∃ r, writeAll st is = ' ' :: r) ∨ (∃ r, writeAll st is = '\n' :: r) ∨
    ∃ (j : Item) (js : List Item) (m : Mode) (ms' : List Mode) (k : Kind) (cs : Text),
      is = j :: js ∧ ms = m :: ms' ∧ j.lexeme = some (k, cs) ∧ Alone U m k cs ∧ AskedFor m (k, cs) ∧
      Tokens U js ms' ∧ needsSpace st.trailing (leadingOf j) = false ∧ startsHtml st.html cs = false ∧
      writeItem st j = (cs, ⟨trailingOf j, advanceHtml st.html cs⟩) ∧
      writeAll st is = cs ++ writeAll ⟨trailingOf j, advanceHtml st.html cs⟩ js := by
  cases ht with
  | nil => left; rfl
  | @blank i is ms hi _ =>
    cases i <;> simp [Item.lexeme] at hi
    · right; left; exact ⟨_, rfl⟩
    · right; right; left; exact ⟨_, rfl⟩
  | @tok i is m ms k cs hi hm ha ht =>
    have hne := (alone_inv ha).1
    have hb : k = .bigint → cs ≠ ['n'] := by
      rintro rfl rfl
      have := shape_of (alone_inv ha).2.1
      cases this with
      | digits h _ => revert h; decide
    have hw := writeItem_eq st hi hne hb
    have hg : gap st (leadingOf i) cs = [] ∨ ∃ r, gap st (leadingOf i) cs = ' ' :: r := by
      simp only [gap]
      split
      · right; exact ⟨_, rfl⟩
      · split
        · right; exact ⟨_, rfl⟩
        · left; rfl
    rcases hg with hg | ⟨r, hg⟩
    · right; right; right
      refine ⟨i, is, m, ms, k, cs, rfl, rfl, hi, ha, hm, ht, ?_, ?_, ?_, ?_⟩
      · simp only [gap] at hg
        split at hg
        · simp at hg
        · rename_i h; simpa using h
      · simp only [gap] at hg
        split at hg
        · simp at hg
        · split at hg
          · simp at hg
          · rename_i h; simpa [advanceHtml] using h
      · rw [hw, hg]; rfl
      · simp only [writeAll, hw, hg, List.nil_append]
    · right; left
      simp only [writeAll, hw, hg]
      exact ⟨_, rfl⟩

/-- The first character behind an item. -/
theorem head_behind (U : Unicode) (st : State) (is : List Item) (ms : List Mode) (ht : Tokens U is ms)
    (f : Char → Bool) (h1 : f ' ' = false) (h2 : f '\n' = false)
    (h : ∀ (j : Item) (k : Kind) (cs : Text) (m : Mode), is.head? = some j → j.lexeme = some (k, cs) →
      Shape U m k cs → needsSpace st.trailing (leadingOf j) = false → startsHtml st.html cs = false →
      headIs f cs = false) : headIs f (writeAll st is) = false := by
  rcases writeAll_cases U st is ms ht with he | ⟨r, he⟩ | ⟨r, he⟩ |
    ⟨j, js, m, ms', k, cs, rfl, rfl, hj, ha, hm, ht', hn, hs, hw, he⟩
  · rw [he]; rfl
  · rw [he]; exact h1
  · rw [he]; exact h2
  · obtain ⟨hne, htok, _⟩ := alone_inv ha
    rw [he, headIs_append _ _ _ (.inl hne)]
    exact h j k cs m rfl hj (shape_of htok) hn hs

end Verif.Lex
