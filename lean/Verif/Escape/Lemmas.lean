import Verif.Escape.Spec
import Verif.Names.Lemmas
/-!
# Helper lemmas for literals
-/

namespace Verif.Escape

/-! ## Digits -/

theorem isHex_iff (c : Nat) : isHex c = true ↔ HexDigit c := by
  unfold isHex HexDigit
  simp only [Bool.or_eq_true, Bool.and_eq_true, decide_eq_true_eq]
  omega

theorem isOctal_iff (c : Nat) : isOctal c = true ↔ OctalDigit c := by
  unfold isOctal OctalDigit
  simp only [Bool.and_eq_true, decide_eq_true_eq]

theorem isDigit_iff (c : Nat) : isDigit c = true ↔ DecimalDigit c := by
  unfold isDigit DecimalDigit
  simp only [Bool.and_eq_true, decide_eq_true_eq]

theorem hexVal_eq {c : Nat} (h : HexDigit c) : hexVal c = hexDigitValue c := by
  unfold hexVal hexDigitValue
  unfold HexDigit at h
  split
  · rfl
  · split <;> omega

theorem hexNum_eq {s : Text} (h : ∀ c ∈ s, HexDigit c) : hexNum s = hexValue 0 s := by
  unfold hexNum
  generalize 0 = n
  induction s generalizing n with
  | nil => rfl
  | cons c cs ih =>
    simp only [List.foldl_cons, hexValue]
    rw [ih (fun d hd => h d (List.mem_cons_of_mem _ hd)), hexVal_eq (h c List.mem_cons_self),
      Nat.mul_comm]

/-! ## Escape sequences -/

theorem esc_weaken {e t : Text} {u : List Nat} (h : EscapeSeq false e t u) : EscapeSeq true e t u := by
  cases h with
  | single h => exact .single h
  | nonEscape h => exact .nonEscape h
  | null h => exact .null h
  | hex h1 h2 => exact .hex h1 h2
  | unicode h1 h2 h3 h4 => exact .unicode h1 h2 h3 h4
  | codePoint h1 h2 h3 => exact .codePoint h1 h2 h3
  | lf => exact .lf
  | ls => exact .ls
  | ps => exact .ps
  | cr h => exact .cr h
  | crlf => exact .crlf
  | octalZero h => exact absurd h (by decide)
  | octal1 h => exact absurd h (by decide)
  | octal2 h => exact absurd h (by decide)
  | octal2High h => exact absurd h (by decide)
  | octal3 h => exact absurd h (by decide)
  | nonOctal h => exact absurd h (by decide)

theorem nextNot_prefix {p : Nat → Prop} {a b : Text} (h : NextNot p (a ++ b)) : NextNot p a := by
  intro c hc
  cases a with
  | nil => simp at hc
  | cons x xs => exact h c (by simpa using hc)

theorem nextNot_append {p : Nat → Prop} {a b : Text} (h : NextNot p a) (hb : NextNot p b) :
    NextNot p (a ++ b) := by
  intro c hc
  cases a with
  | nil => exact hb c (by simpa using hc)
  | cons x xs => exact h c (by simpa using hc)

/-- What follows a literal's characters: a delimiter, so neither a digit nor LF. -/
def Delimited (rest : Text) : Prop := NextNot (fun c => DecimalDigit c ∨ c = 10) rest

theorem delim_digit {rest : Text} (h : Delimited rest) : NextNot DecimalDigit rest :=
  fun c hc hd => h c hc (.inl hd)
theorem delim_octal {rest : Text} (h : Delimited rest) : NextNot OctalDigit rest :=
  fun c hc hd => h c hc (.inl ⟨hd.1, by have := hd.2; omega⟩)
theorem delim_lf {rest : Text} (h : Delimited rest) : NextNot (· = 10) rest :=
  fun c hc hd => h c hc (.inr hd)

theorem esc_restrict {b : Bool} {e cs rest : Text} {u : List Nat} (hr : Delimited rest)
    (h : EscapeSeq b e (cs ++ rest) u) : EscapeSeq b e cs u := by
  generalize hx : cs ++ rest = x at h
  cases h with
  | single h => exact .single h
  | nonEscape h => exact .nonEscape h
  | null h => subst hx; exact .null (nextNot_prefix h)
  | hex h1 h2 => exact .hex h1 h2
  | unicode h1 h2 h3 h4 => exact .unicode h1 h2 h3 h4
  | codePoint h1 h2 h3 => exact .codePoint h1 h2 h3
  | lf => exact .lf
  | ls => exact .ls
  | ps => exact .ps
  | cr h => subst hx; exact .cr (nextNot_prefix h)
  | crlf => exact .crlf
  | octalZero h h2 =>
    rename_i d rest'
    cases cs with
    | nil =>
      rw [List.nil_append] at hx
      subst hx
      exact absurd (.inl (by unfold DecimalDigit; omega)) (hr d (by simp))
    | cons x xs =>
      simp only [List.cons_append, List.cons.injEq] at hx
      rw [hx.1]
      exact .octalZero h h2
  | octal1 h h2 h3 h4 => subst hx; exact .octal1 h h2 h3 (nextNot_prefix h4)
  | octal2 h h2 h3 h4 h5 => subst hx; exact .octal2 h h2 h3 h4 (nextNot_prefix h5)
  | octal2High h h2 h3 h4 => exact .octal2High h h2 h3 h4
  | octal3 h h2 h3 h4 h5 => exact .octal3 h h2 h3 h4 h5
  | nonOctal h h2 => exact .nonOctal h h2

theorem esc_extend {b : Bool} {e cs rest : Text} {u : List Nat} (hr : Delimited rest)
    (h : EscapeSeq b e cs u) : EscapeSeq b e (cs ++ rest) u := by
  cases h with
  | single h => exact .single h
  | nonEscape h => exact .nonEscape h
  | null h => exact .null (nextNot_append h (delim_digit hr))
  | hex h1 h2 => exact .hex h1 h2
  | unicode h1 h2 h3 h4 => exact .unicode h1 h2 h3 h4
  | codePoint h1 h2 h3 => exact .codePoint h1 h2 h3
  | lf => exact .lf
  | ls => exact .ls
  | ps => exact .ps
  | cr h => exact .cr (nextNot_append h (delim_lf hr))
  | crlf => exact .crlf
  | octalZero h h2 => exact .octalZero h h2
  | octal1 h h2 h3 h4 => exact .octal1 h h2 h3 (nextNot_append h4 (delim_octal hr))
  | octal2 h h2 h3 h4 h5 => exact .octal2 h h2 h3 h4 (nextNot_append h5 (delim_octal hr))
  | octal2High h h2 h3 h4 => exact .octal2High h h2 h3 h4
  | octal3 h h2 h3 h4 h5 => exact .octal3 h h2 h3 h4 h5
  | nonOctal h h2 => exact .nonOctal h h2

/-- A character the lexers treat as plain everywhere. -/
def Safe (d : Nat) : Prop := d ≠ 92 ∧ d ≠ 10 ∧ d ≠ 13 ∧ d ≠ 34 ∧ d ≠ 39 ∧ d ≠ 96 ∧ d ≠ 36

theorem safe_hex {d : Nat} (h : HexDigit d) : Safe d := by
  unfold HexDigit at h; unfold Safe; omega
theorem safe_octal {d : Nat} (h : OctalDigit d) : Safe d := by
  unfold OctalDigit at h; unfold Safe; omega

/-- The shape of an escape: one character followed by plain ones, or CR LF. -/
def Plain (e t : Text) : Prop :=
  (∃ c e', e = c :: e' ∧ (∀ d ∈ e', Safe d) ∧ (c = 13 → e' = [] ∧ NextNot (· = 10) t)) ∨ e = [13, 10]

theorem esc_plain {b : Bool} {e t : Text} {u : List Nat} (h : EscapeSeq b e t u) : Plain e t := by
  cases h with
  | single h =>
    refine .inl ⟨_, [], rfl, by simp, ?_⟩
    rintro rfl
    simp [singleEscapes] at h
  | nonEscape h =>
    refine .inl ⟨_, [], rfl, by simp, ?_⟩
    rintro rfl
    exact absurd (.inr (.inl rfl)) h.2.2.2.2
  | null h => exact .inl ⟨_, [], rfl, by simp, by omega⟩
  | hex h1 h2 =>
    refine .inl ⟨_, _, rfl, ?_, by omega⟩
    intro d hd
    simp only [List.mem_cons, List.not_mem_nil, or_false] at hd
    rcases hd with rfl | rfl
    · exact safe_hex h1
    · exact safe_hex h2
  | unicode h1 h2 h3 h4 =>
    refine .inl ⟨_, _, rfl, ?_, by omega⟩
    intro d hd
    simp only [List.mem_cons, List.not_mem_nil, or_false] at hd
    rcases hd with rfl | rfl | rfl | rfl
    · exact safe_hex h1
    · exact safe_hex h2
    · exact safe_hex h3
    · exact safe_hex h4
  | codePoint h1 h2 h3 =>
    refine .inl ⟨_, _, rfl, ?_, by omega⟩
    intro d hd
    simp only [List.mem_cons, List.mem_append, List.not_mem_nil, or_false] at hd
    rcases hd with rfl | hd | rfl
    · unfold Safe; omega
    · exact safe_hex (h2 d hd)
    · unfold Safe; omega
  | lf => exact .inl ⟨_, [], rfl, by simp, by omega⟩
  | ls => exact .inl ⟨_, [], rfl, by simp, by omega⟩
  | ps => exact .inl ⟨_, [], rfl, by simp, by omega⟩
  | cr h => exact .inl ⟨_, [], rfl, by simp, fun _ => ⟨rfl, h⟩⟩
  | crlf => exact .inr rfl
  | octalZero h => exact .inl ⟨_, [], rfl, by simp, by omega⟩
  | octal1 h h2 => exact .inl ⟨_, [], rfl, by simp, by unfold OctalDigit at h2; omega⟩
  | octal2 h h2 h3 h4 =>
    exact .inl ⟨_, _, rfl, by simpa using safe_octal h4, by unfold OctalDigit at h2; omega⟩
  | octal2High h h2 h3 h4 =>
    exact .inl ⟨_, _, rfl, by simpa using safe_octal h4, by unfold OctalDigit at h2; omega⟩
  | octal3 h h2 h3 h4 h5 =>
    exact .inl ⟨_, _, rfl, by simpa using ⟨safe_octal h4, safe_octal h5⟩, by unfold OctalDigit at h2; omega⟩
  | nonOctal h h2 => exact .inl ⟨_, [], rfl, by simp, by omega⟩

/-! ## The escape decoder -/

/-- The one deviation of the decoder: three octal digits of which the first is at least `4`. -/
def HighOct (e : Text) : Prop := ∃ a b c, e = [a, b, c] ∧ 52 ≤ a ∧ a ≤ 55 ∧ OctalDigit b ∧ OctalDigit c

theorem highOct_plain {e t : Text} (h : HighOct e) : Plain e t := by
  obtain ⟨a, b, c, rfl, h1, h2, h3, h4⟩ := h
  exact .inl ⟨_, _, rfl, by simpa using ⟨safe_octal h3, safe_octal h4⟩, by omega⟩

theorem takeWhile_all_append {p : Nat → Bool} {a : Text} {d : Nat} {b : Text} (h : ∀ x ∈ a, p x = true)
    (hd : p d = false) : (a ++ d :: b).takeWhile p = a := by
  induction a with
  | nil => simp [hd]
  | cons x xs ih =>
    simp only [List.cons_append, List.takeWhile_cons]
    rw [if_pos (h x List.mem_cons_self), ih (fun y hy => h y (List.mem_cons_of_mem _ hy))]

theorem decodeEsc16_complete {e t : Text} {u : List Nat} (h : EscapeSeq true e t u)
    (ho : ∀ a b c t', e = [a, b] → t = c :: t' → 52 ≤ a → a ≤ 55 → OctalDigit b → ¬ OctalDigit c) :
    decodeEsc16 (e ++ t) = .ok (u, t) := by
  have oct0 : ∀ (x : Text), NextNot OctalDigit x → octalTail x = [] := by
    intro x hx
    cases x with
    | nil => rfl
    | cons y ys =>
      have : isOctal y = false := by
        rw [← Bool.not_eq_true, isOctal_iff]; exact hx y (by simp)
      simp [octalTail, this]
  cases h with
  | single h =>
    rename_i c v
    simp only [singleEscapes, List.mem_cons, Prod.mk.injEq, List.not_mem_nil, or_false] at h
    rcases h with ⟨rfl, rfl⟩ | ⟨rfl, rfl⟩ | ⟨rfl, rfl⟩ | ⟨rfl, rfl⟩ | ⟨rfl, rfl⟩ | ⟨rfl, rfl⟩ |
      ⟨rfl, rfl⟩ | ⟨rfl, rfl⟩ | ⟨rfl, rfl⟩ <;> simp [decodeEsc16, isOctal, utf16]
  | nonEscape h =>
    rename_i c
    obtain ⟨h1, h2, h3, h4, h5⟩ := h
    simp only [singleEscapes, List.mem_cons, List.not_mem_nil, or_false, forall_eq_or_imp, forall_eq] at h1
    unfold LineTerminator at h5
    have h6 : isOctal c = false := by
      rw [← Bool.not_eq_true, isOctal_iff]; unfold OctalDigit; unfold DecimalDigit at h2; omega
    simp only [List.cons_append, List.nil_append, decodeEsc16, h6]
    rw [if_neg (by omega), if_neg (by omega), if_neg (by omega), if_neg (by omega), if_neg (by omega),
      if_neg (by omega), if_neg (by omega), if_neg (by omega), if_neg (by simp), if_neg (by omega),
      if_neg (by omega)]
  | null h =>
    have : octalTail t = [] := oct0 t (fun c hc hd => h c hc (by
      unfold OctalDigit at hd; unfold DecimalDigit; omega))
    simp [decodeEsc16, isOctal, this, octNum]
  | octalZero h h2 =>
    rename_i d rest
    have : octalTail (d :: rest) = [] := oct0 _ (fun c hc hd => by
      simp only [List.head?_cons, Option.mem_def, Option.some.injEq] at hc
      unfold OctalDigit at hd; omega)
    simp [decodeEsc16, isOctal, this, octNum]
  | hex h1 h2 =>
    rename_i a b
    have h3 : hexNum [a, b] = hexValue 0 [a, b] := hexNum_eq (by simpa using ⟨h1, h2⟩)
    simp [decodeEsc16, isOctal, (isHex_iff a).2 h1, (isHex_iff b).2 h2, h3]
  | unicode h1 h2 h3 h4 =>
    rename_i a b c d
    have h5 : hexNum [a, b, c, d] = hexValue 0 [a, b, c, d] := hexNum_eq (by simpa using ⟨h1, h2, h3, h4⟩)
    have hne : a ≠ 123 := by unfold HexDigit at h1; omega
    have hl : ¬ Names.byteLen [a, b, c, d] < 4 := by
      have := Names.lenUtf8_pos a
      have := Names.lenUtf8_pos b
      have := Names.lenUtf8_pos c
      have := Names.lenUtf8_pos d
      simp only [Names.byteLen, List.map_cons, List.map_nil, List.sum_cons, List.sum_nil]
      omega
    simp [decodeEsc16, isOctal, hne, hl, (isHex_iff a).2 h1, (isHex_iff b).2 h2, (isHex_iff c).2 h3,
      (isHex_iff d).2 h4, h5]
  | codePoint h1 h2 h3 =>
    rename_i ds
    have h4 : hexNum ds = hexValue 0 ds := hexNum_eq h2
    have h5 : (ds ++ 125 :: t).takeWhile (fun x => decide (x ≠ 125)) = ds := by
      refine takeWhile_all_append ?_ (by simp)
      intro x hx
      have := h2 x hx
      unfold HexDigit at this
      simp only [decide_eq_true_eq]
      omega
    have h6 : ds.all isHex = true := by
      rw [List.all_eq_true]
      exact fun x hx => (isHex_iff x).2 (h2 x hx)
    have h7 : ds.isEmpty = false := by cases ds with
      | nil => exact absurd rfl h1
      | cons _ _ => rfl
    have e1 : (117 :: 123 :: (ds ++ [125])) ++ t = 117 :: 123 :: (ds ++ 125 :: t) := by simp
    rw [e1]
    simp only [decodeEsc16]
    rw [if_neg (by omega), if_neg (by omega), if_neg (by omega), if_neg (by omega), if_neg (by omega),
      if_neg (by omega), if_neg (by omega), if_neg (by omega), if_neg (by decide), if_neg (by omega),
      if_pos trivial, if_pos (by simp), if_pos (by simp)]
    simp only [List.drop_succ_cons, List.drop_zero, h5, h6, h7]
    rw [if_neg (by simp), if_neg (by omega), h4]
    have e2 : (ds ++ 125 :: t).drop (ds.length + 1) = t := by
      rw [show ds ++ 125 :: t = (ds ++ [125]) ++ t by simp]
      exact List.drop_left' (by simp)
    rw [e2]
  | lf => simp [decodeEsc16]
  | ls => simp [decodeEsc16]
  | ps => simp [decodeEsc16]
  | cr h =>
    cases t with
    | nil => simp [decodeEsc16]
    | cons d t' =>
      have : d ≠ 10 := h d (by simp)
      simp [decodeEsc16, this]
  | crlf => simp [decodeEsc16]
  | octal1 h h2 h3 h4 =>
    rename_i a
    have h5 := (isOctal_iff a).2 h2
    unfold OctalDigit at h2
    simp only [List.cons_append, List.nil_append, decodeEsc16, h5, oct0 t h4]
    rw [if_neg (by omega), if_neg (by omega), if_neg (by omega), if_neg (by omega), if_neg (by omega),
      if_neg (by omega), if_neg (by omega), if_neg (by omega), if_pos trivial]
    simp [octNum]
  | octal2 h h2 h3 h4 h6 =>
    rename_i a b
    have h5 := (isOctal_iff a).2 h2
    have h7 := (isOctal_iff b).2 h4
    have ht : octalTail (b :: t) = [b] := by
      cases t with
      | nil => simp [octalTail, h7]
      | cons y ys =>
        have : isOctal y = false := by
          rw [← Bool.not_eq_true, isOctal_iff]; exact h6 y (by simp)
        simp [octalTail, this, h7]
    unfold OctalDigit at h2
    simp only [List.cons_append, List.nil_append, decodeEsc16, h5, ht]
    rw [if_neg (by omega), if_neg (by omega), if_neg (by omega), if_neg (by omega), if_neg (by omega),
      if_neg (by omega), if_neg (by omega), if_neg (by omega), if_pos trivial]
    simp [octNum]
    omega
  | octal2High h h2 h3 h4 =>
    rename_i a b
    have h5 := (isOctal_iff a).2 h2
    have h7 := (isOctal_iff b).2 h4
    have ht : octalTail (b :: t) = [b] := by
      cases t with
      | nil => simp [octalTail, h7]
      | cons y ys =>
        have : isOctal y = false := by
          rw [← Bool.not_eq_true, isOctal_iff]
          exact ho a b y ys rfl rfl h3 h2.2 h4
        simp [octalTail, this, h7]
    unfold OctalDigit at h2
    simp only [List.cons_append, List.nil_append, decodeEsc16, h5, ht]
    rw [if_neg (by omega), if_neg (by omega), if_neg (by omega), if_neg (by omega), if_neg (by omega),
      if_neg (by omega), if_neg (by omega), if_neg (by omega), if_pos trivial]
    simp [octNum]
    omega
  | octal3 h h2 h3 h4 h6 =>
    rename_i a b c
    have h5 := (isOctal_iff a).2 h2
    have ht : octalTail (b :: c :: t) = [b, c] := by
      simp [octalTail, (isOctal_iff b).2 h4, (isOctal_iff c).2 h6]
    unfold OctalDigit at h2
    simp only [List.cons_append, List.nil_append, decodeEsc16, h5, ht]
    rw [if_neg (by omega), if_neg (by omega), if_neg (by omega), if_neg (by omega), if_neg (by omega),
      if_neg (by omega), if_neg (by omega), if_neg (by omega), if_pos trivial]
    simp [octNum]
    omega
  | nonOctal h h2 =>
    rcases h2 with rfl | rfl <;> simp [decodeEsc16, isOctal, utf16]

theorem decodeEsc16_sound {s t : Text} {u : List Nat} (h : decodeEsc16 s = .ok (u, t)) :
    ∃ e, s = e ++ t ∧ (EscapeSeq true e t u ∨ HighOct e) := by
  cases s with
  | nil => simp [decodeEsc16] at h
  | cons c s =>
    simp only [decodeEsc16] at h
    by_cases c13 : c = 13
    · subst c13
      rw [if_pos rfl] at h
      cases s with
      | nil =>
        simp only [Except.ok.injEq, Prod.mk.injEq] at h
        obtain ⟨rfl, rfl⟩ := h
        exact ⟨[13], rfl, .inl (.cr (by intro c hc; simp at hc))⟩
      | cons d t' =>
        simp only at h
        split at h
        · rename_i hd
          subst hd
          simp only [Except.ok.injEq, Prod.mk.injEq] at h
          obtain ⟨rfl, rfl⟩ := h
          exact ⟨[13, 10], rfl, .inl .crlf⟩
        · rename_i hd
          simp only [Except.ok.injEq, Prod.mk.injEq] at h
          obtain ⟨rfl, rfl⟩ := h
          refine ⟨[13], rfl, .inl (.cr ?_)⟩
          intro c hc
          simp only [List.head?_cons, Option.mem_def, Option.some.injEq] at hc
          omega
    rw [if_neg c13] at h
    by_cases cl : c = 10 ∨ c = 0x2028 ∨ c = 0x2029
    · rw [if_pos cl] at h
      simp only [Except.ok.injEq, Prod.mk.injEq] at h
      obtain ⟨rfl, rfl⟩ := h
      rcases cl with rfl | rfl | rfl
      · exact ⟨[10], rfl, .inl .lf⟩
      · exact ⟨[0x2028], rfl, .inl .ls⟩
      · exact ⟨[0x2029], rfl, .inl .ps⟩
    rw [if_neg cl] at h
    by_cases c98 : c = 98
    · rw [if_pos c98] at h
      simp only [Except.ok.injEq, Prod.mk.injEq] at h
      obtain ⟨rfl, rfl⟩ := h; subst c98
      exact ⟨[98], rfl, .inl (.single (by decide))⟩
    rw [if_neg c98] at h
    by_cases c102 : c = 102
    · rw [if_pos c102] at h
      simp only [Except.ok.injEq, Prod.mk.injEq] at h
      obtain ⟨rfl, rfl⟩ := h; subst c102
      exact ⟨[102], rfl, .inl (.single (by decide))⟩
    rw [if_neg c102] at h
    by_cases c110 : c = 110
    · rw [if_pos c110] at h
      simp only [Except.ok.injEq, Prod.mk.injEq] at h
      obtain ⟨rfl, rfl⟩ := h; subst c110
      exact ⟨[110], rfl, .inl (.single (by decide))⟩
    rw [if_neg c110] at h
    by_cases c114 : c = 114
    · rw [if_pos c114] at h
      simp only [Except.ok.injEq, Prod.mk.injEq] at h
      obtain ⟨rfl, rfl⟩ := h; subst c114
      exact ⟨[114], rfl, .inl (.single (by decide))⟩
    rw [if_neg c114] at h
    by_cases c116 : c = 116
    · rw [if_pos c116] at h
      simp only [Except.ok.injEq, Prod.mk.injEq] at h
      obtain ⟨rfl, rfl⟩ := h; subst c116
      exact ⟨[116], rfl, .inl (.single (by decide))⟩
    rw [if_neg c116] at h
    by_cases c118 : c = 118
    · rw [if_pos c118] at h
      simp only [Except.ok.injEq, Prod.mk.injEq] at h
      obtain ⟨rfl, rfl⟩ := h; subst c118
      exact ⟨[118], rfl, .inl (.single (by decide))⟩
    rw [if_neg c118] at h
    by_cases co : isOctal c = true
    · rw [if_pos co] at h
      simp only [Except.ok.injEq, Prod.mk.injEq] at h
      have hc := (isOctal_iff c).1 co
      have hnn : ∀ (y : Nat) (ys : Text), isOctal y = false → NextNot OctalDigit (y :: ys) := by
        intro y ys hy d hd
        simp only [List.head?_cons, Option.mem_def, Option.some.injEq] at hd
        rw [← hd, ← isOctal_iff, hy]; decide
      have one : octalTail s = [] → NextNot OctalDigit s →
          ∃ e, c :: s = e ++ t ∧ (EscapeSeq true e t u ∨ HighOct e) := by
        intro h0 hn
        rw [h0] at h
        obtain ⟨rfl, rfl⟩ := h
        simp only [List.length_nil, List.drop_zero, octNum, List.foldl_cons, List.foldl_nil]
        by_cases hz : c = 48
        · subst hz
          cases hs : s with
          | nil => exact ⟨[48], rfl, .inl (.null (by intro c hc; simp at hc))⟩
          | cons y ys =>
            refine ⟨[48], rfl, .inl ?_⟩
            have := hn y (by simp [hs])
            by_cases hy : DecimalDigit y
            · exact .octalZero rfl (by unfold DecimalDigit at hy; unfold OctalDigit at this; omega)
            · exact .null (by
                intro d hd
                simp only [List.head?_cons, Option.mem_def, Option.some.injEq] at hd
                exact hd ▸ hy)
        · refine ⟨[c], rfl, .inl ?_⟩
          have := EscapeSeq.octal1 (legacy := true) (rest := s) rfl hc hz hn
          simpa using this
      cases s with
      | nil => exact one rfl (by intro c hc; simp at hc)
      | cons b s' =>
        by_cases hb : isOctal b = true
        · have hb' := (isOctal_iff b).1 hb
          have two : octalTail (b :: s') = [b] → NextNot OctalDigit s' →
              ∃ e, c :: b :: s' = e ++ t ∧ (EscapeSeq true e t u ∨ HighOct e) := by
            intro h0 hn
            rw [h0] at h
            obtain ⟨rfl, rfl⟩ := h
            refine ⟨[c, b], rfl, .inl ?_⟩
            have hv : octNum [c, b] = 8 * (c - 48) + (b - 48) := by
              simp [octNum]; omega
            rw [hv]
            simp only [List.length_singleton, List.drop_succ_cons, List.drop_zero]
            by_cases h51 : c ≤ 51
            · exact .octal2 rfl hc h51 hb' hn
            · exact .octal2High rfl hc (by omega) hb'
          cases s' with
          | nil => exact two (by simp [octalTail, hb]) (by intro c hc; simp at hc)
          | cons d s'' =>
            by_cases hd : isOctal d = true
            · have hd' := (isOctal_iff d).1 hd
              have ht : octalTail (b :: d :: s'') = [b, d] := by simp [octalTail, hb, hd]
              rw [ht] at h
              obtain ⟨rfl, rfl⟩ := h
              refine ⟨[c, b, d], rfl, ?_⟩
              by_cases h51 : c ≤ 51
              · refine .inl ?_
                have hv : octNum [c, b, d] = 64 * (c - 48) + 8 * (b - 48) + (d - 48) := by
                  simp [octNum]; omega
                rw [hv]
                exact .octal3 rfl hc h51 hb' hd'
              · exact .inr ⟨c, b, d, rfl, by omega, hc.2, hb', hd'⟩
            · have hd2 : isOctal d = false := by simpa using hd
              exact two (by simp [octalTail, hb, hd2]) (hnn _ _ hd2)
        · have hb2 : isOctal b = false := by simpa using hb
          exact one (by simp [octalTail, hb2]) (hnn _ _ hb2)
    rw [if_neg co] at h
    by_cases c120 : c = 120
    · rw [if_pos c120] at h
      subst c120
      rcases s with _ | ⟨h1, _ | ⟨h2, s⟩⟩
      · simp at h
      · simp at h
      · simp only at h
        split at h
        · rename_i hh
          simp only [Bool.and_eq_true] at hh
          simp only [Except.ok.injEq, Prod.mk.injEq] at h
          obtain ⟨rfl, rfl⟩ := h
          have g1 := (isHex_iff h1).1 hh.1
          have g2 := (isHex_iff h2).1 hh.2
          refine ⟨[120, h1, h2], rfl, .inl ?_⟩
          rw [hexNum_eq (by simpa using ⟨g1, g2⟩)]
          exact .hex g1 g2
        · simp at h
    rw [if_neg c120] at h
    by_cases c117 : c = 117
    · rw [if_pos c117] at h
      subst c117
      split at h
      · rename_i hb
        split at h
        · rename_i hm
          cases s with
          | nil => simp at hb
          | cons b s' =>
            simp only [List.head?_cons, Option.some.injEq] at hb
            subst hb
            simp only [List.drop_succ_cons, List.drop_zero] at h
            split at h
            · simp at h
            · rename_i hne
              split at h
              · simp at h
              · rename_i hle
                simp only [Except.ok.injEq, Prod.mk.injEq] at h
                obtain ⟨rfl, rfl⟩ := h
                simp only [Bool.or_eq_true, Bool.not_eq_true', not_or, Bool.not_eq_false,
                  Bool.not_eq_true] at hne
                have hm' : 125 ∈ s' := by
                  rcases List.mem_cons.1 hm with hm | hm
                  · omega
                  · exact hm
                have hsplit : ∃ r, s' = s'.takeWhile (fun x => decide (x ≠ 125)) ++ 125 :: r := by
                  clear hne hle hm
                  induction s' with
                  | nil => simp at hm'
                  | cons x xs ih =>
                    by_cases hx : x = 125
                    · subst hx; exact ⟨xs, by simp⟩
                    · obtain ⟨r, hr⟩ := ih (by
                        rcases List.mem_cons.1 hm' with h | h
                        · exact absurd h.symm hx
                        · exact h)
                      refine ⟨r, ?_⟩
                      rw [List.takeWhile_cons, if_pos (by simpa using hx), List.cons_append, ← hr]
                obtain ⟨r, hr⟩ := hsplit
                generalize hds : s'.takeWhile (fun x => decide (x ≠ 125)) = ds at *
                have hall : ∀ d ∈ ds, HexDigit d := by
                  intro d hd
                  exact (isHex_iff d).1 (List.all_eq_true.1 hne.2 d hd)
                have hdrop : s'.drop (ds.length + 1) = r := by
                  rw [hr, show ds ++ 125 :: r = (ds ++ [125]) ++ r by simp]
                  exact List.drop_left' (by simp)
                rw [hdrop]
                refine ⟨117 :: 123 :: (ds ++ [125]), by rw [hr]; simp, .inl ?_⟩
                rw [hexNum_eq hall] at hle ⊢
                refine .codePoint ?_ hall (by omega)
                rintro rfl
                simp at hne
        · simp at h
      · rename_i hb
        split at h
        · simp at h
        · rename_i hlen
          split at h
          · simp at h
          · rename_i hall
            simp only [Except.ok.injEq, Prod.mk.injEq] at h
            obtain ⟨rfl, rfl⟩ := h
            simp only [Bool.not_eq_true', Bool.not_eq_false] at hall
            have hall' : ∀ d ∈ s.take 4, HexDigit d := fun d hd =>
              (isHex_iff d).1 (List.all_eq_true.1 hall d hd)
            have hl1 : ∀ d, HexDigit d → Names.lenUtf8 d = 1 := by
              intro d hd
              unfold HexDigit at hd
              unfold Names.lenUtf8
              rw [if_pos (by omega)]
            have hl : ∀ x : Text, (∀ d ∈ x, HexDigit d) → Names.byteLen x = x.length := by
              intro x
              induction x with
              | nil => intro _; rfl
              | cons y ys ih =>
                intro hx
                rw [Names.byteLen_cons, hl1 y (hx y List.mem_cons_self),
                  ih (fun d hd => hx d (List.mem_cons_of_mem _ hd)), List.length_cons]
                omega
            rw [hl _ hall'] at hlen
            rcases s with _ | ⟨a, _ | ⟨b, _ | ⟨c, _ | ⟨d, s⟩⟩⟩⟩
            · simp at hlen
            · simp at hlen
            · simp at hlen
            · simp at hlen
            · simp only [List.take_succ_cons, List.take_zero, List.drop_succ_cons, List.drop_zero] at hall' ⊢
              refine ⟨[117, a, b, c, d], rfl, .inl ?_⟩
              rw [hexNum_eq hall']
              simp only [List.mem_cons, List.not_mem_nil, or_false, forall_eq_or_imp, forall_eq] at hall'
              exact .unicode hall'.1 hall'.2.1 hall'.2.2.1 hall'.2.2.2
    rw [if_neg c117] at h
    simp only [Except.ok.injEq, Prod.mk.injEq] at h
    obtain ⟨rfl, rfl⟩ := h
    by_cases hq : c = 39 ∨ c = 34 ∨ c = 92
    · refine ⟨[c], rfl, .inl ?_⟩
      rcases hq with rfl | rfl | rfl <;> exact .single (by decide)
    · by_cases hd : c = 56 ∨ c = 57
      · refine ⟨[c], rfl, .inl ?_⟩
        rcases hd with rfl | rfl
        · exact .nonOctal rfl (.inl rfl)
        · exact .nonOctal rfl (.inr rfl)
      · refine ⟨[c], rfl, .inl (.nonEscape ⟨?_, ?_, c120, c117, ?_⟩)⟩
        · simp only [singleEscapes, List.mem_cons, List.not_mem_nil, or_false, forall_eq_or_imp, forall_eq]
          omega
        · have : ¬ OctalDigit c := by rw [← isOctal_iff]; exact co
          unfold OctalDigit at this
          unfold DecimalDigit
          omega
        · unfold LineTerminator; omega

end Verif.Escape
