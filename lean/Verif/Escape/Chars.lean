import Verif.Escape.Lemmas
/-!
# Helper lemmas: whole literals
-/

namespace Verif.Escape

/-! ## Code units and characters -/

theorem fromUtf16Lossy_utf16s {s : Text} (h : ∀ c ∈ s, Scalar c) : fromUtf16Lossy (utf16s s) = s := by
  induction s with
  | nil => rfl
  | cons c cs ih =>
    have hc := h c List.mem_cons_self
    have ih := ih (fun d hd => h d (List.mem_cons_of_mem _ hd))
    unfold Scalar at hc
    simp only [utf16s, List.flatMap_cons] at ih ⊢
    unfold utf16
    split
    · rename_i hlt
      rw [List.singleton_append, fromUtf16Lossy.eq_def]
      simp only
      rw [if_neg (by omega), if_neg (by omega)]
      exact congrArg _ ih
    · rename_i hge
      rw [List.cons_append, List.singleton_append, fromUtf16Lossy.eq_def]
      simp only
      rw [if_pos (by omega), if_pos (by omega)]
      rw [show 0x10000 + (0xD800 + (c - 0x10000) / 0x400 - 0xD800) * 0x400 +
        (0xDC00 + (c - 0x10000) % 0x400 - 0xDC00) = c by omega]
      exact congrArg _ ih

/-! ## Characters of string literals without what follows -/

theorem chars_restrict {b : Bool} {q : Nat} {cs rest : Text} {us : List Nat} (hr : Delimited rest)
    (h : StringChars b q cs rest us) : StringChars b q cs [] us := by
  induction h with
  | done => exact .done
  | char h1 h2 h3 h4 _ ih => exact .char h1 h2 h3 h4 (ih hr)
  | escape he _ ih => exact .escape (by rw [List.append_nil]; exact esc_restrict hr he) (ih hr)

theorem chars_extend {b : Bool} {q : Nat} {cs rest : Text} {us : List Nat} (hr : Delimited rest)
    (h : StringChars b q cs [] us) : StringChars b q cs rest us := by
  generalize hx : ([] : Text) = x at h
  induction h with
  | done => exact .done
  | char h1 h2 h3 h4 _ ih => exact .char h1 h2 h3 h4 (ih hx)
  | escape he _ ih =>
    subst hx
    exact .escape (by rw [List.append_nil] at he; exact esc_extend hr he) (ih rfl)

theorem chars_weaken {q : Nat} {cs rest : Text} {us : List Nat} (h : StringChars false q cs rest us) :
    StringChars true q cs rest us := by
  induction h with
  | done => exact .done
  | char h1 h2 h3 h4 _ ih => exact .char h1 h2 h3 h4 ih
  | escape he _ ih => exact .escape (esc_weaken he) ih

theorem delimited_quote {q : Nat} (hq : q = 34 ∨ q = 39) (rest : Text) : Delimited (q :: rest) := by
  intro c hc hd
  simp only [List.head?_cons, Option.mem_def, Option.some.injEq] at hc
  subst hc
  unfold DecimalDigit at hd
  omega

/-! ## The decoder on whole bodies -/

theorem plain_ne {e t : Text} (h : Plain e t) : e ≠ [] := by
  rcases h with ⟨c, e', rfl, _⟩ | rfl <;> simp

theorem decode16_complete {q : Nat} {body : Text} {us : List Nat} {allow : Bool}
    (h : StringChars true q body [] us) (hh : ¬ HighOctal body) (fuel : Nat) (hf : body.length ≤ fuel) :
    decodeLit16 allow fuel body = .ok us := by
  generalize hx : ([] : Text) = x at h
  induction h generalizing fuel with
  | done => cases fuel <;> rfl
  | char h1 h2 h3 h4 _ ih =>
    rename_i c cs rest us _
    cases fuel with
    | zero => simp at hf
    | succ fuel =>
      have := ih (by
        rintro ⟨pre, a, b, d, post, hp, hr⟩
        exact hh ⟨c :: pre, a, b, d, post, by rw [hp]; rfl, hr⟩) fuel (by simpa using hf) hx
      simp only [decodeLit16, if_neg h2, this]
      rw [if_neg (by simp [h3, h4])]
  | escape he _ ih =>
    rename_i e cs rest u us _
    subst hx
    rw [List.append_nil] at he
    cases fuel with
    | zero => simp at hf
    | succ fuel =>
      have hne := plain_ne (esc_plain he)
      have hlen : cs.length ≤ fuel := by
        have : 0 < e.length := List.length_pos_iff.2 hne
        simp only [List.length_cons, List.length_append] at hf
        omega
      have := ih (by
        rintro ⟨pre, a, b, d, post, hp, hr⟩
        exact hh ⟨92 :: (e ++ pre), a, b, d, post, by rw [hp]; simp, hr⟩) fuel hlen rfl
      have hd := decodeEsc16_complete he (by
        rintro a b c t' rfl rfl h1 h2 h3 h4
        exact hh ⟨[], a, b, c, t', rfl, h1, h2, h3, h4⟩)
      simp only [decodeLit16, if_pos, hd, this]

/-- How the decoder cuts a text: plain characters and escapes. -/
inductive Cut (allow : Bool) : Text → List Nat → Prop where
  | done : Cut allow [] []
  | char {c : Nat} {cs : Text} {us : List Nat} : c ≠ 92 → (allow = false → c ≠ 10 ∧ c ≠ 13) → Cut allow cs us →
      Cut allow (c :: cs) (utf16 c ++ us)
  | escape {e cs : Text} {u us : List Nat} : (EscapeSeq true e cs u ∨ HighOct e) → Cut allow cs us →
      Cut allow (92 :: (e ++ cs)) (u ++ us)

theorem decode16_cut {allow : Bool} {body : Text} {us : List Nat} (fuel : Nat) (hf : body.length ≤ fuel)
    (h : decodeLit16 allow fuel body = .ok us) : Cut allow body us := by
  induction fuel generalizing body us with
  | zero =>
    have : body = [] := List.length_eq_zero_iff.1 (by omega)
    subst this
    simp only [decodeLit16, Except.ok.injEq] at h
    subst h
    exact .done
  | succ fuel ih =>
    cases body with
    | nil =>
      simp only [decodeLit16, Except.ok.injEq] at h
      subst h
      exact .done
    | cons c s =>
      simp only [decodeLit16] at h
      split at h
      · rename_i hc
        subst hc
        split at h
        · simp at h
        · rename_i u t hd
          split at h
          · simp at h
          · rename_i us' hl
            simp only [Except.ok.injEq] at h
            subst h
            obtain ⟨e, rfl, he⟩ := decodeEsc16_sound hd
            exact .escape he (ih (by simp only [List.length_cons, List.length_append] at hf; omega) hl)
      · rename_i hc
        split at h
        · simp at h
        · rename_i hn
          split at h
          · simp at h
          · rename_i us' hl
            simp only [Except.ok.injEq] at h
            subst h
            refine .char hc ?_ (ih (by simpa using hf) hl)
            rintro rfl
            simpa using hn

theorem or_plain {e t : Text} {u : List Nat} (h : EscapeSeq true e t u ∨ HighOct e) : Plain e t := by
  rcases h with h | h
  · exact esc_plain h
  · exact highOct_plain h

/-! ## The lexer as a state machine -/

/-- Where the string lexer is: between characters, after a backslash, after a backslash and CR. -/
inductive Mode where
  | normal | back | backCr
deriving DecidableEq

/-- Mode, whether an unescaped line break was seen, whether an unescaped quote was seen. -/
structure Scan where
  mode : Mode
  line : Bool
  quoted : Bool
deriving DecidableEq

def step (q : Nat) (s : Scan) (c : Nat) : Scan :=
  match s.mode with
  | .back => if c = 13 then ⟨.backCr, s.line, s.quoted⟩ else ⟨.normal, s.line, s.quoted⟩
  | .normal =>
    if c = 92 then ⟨.back, s.line, s.quoted⟩
    else ⟨.normal, s.line || c == 10 || c == 13, s.quoted || c == q⟩
  | .backCr =>
    if c = 10 then ⟨.normal, s.line, s.quoted⟩
    else if c = 92 then ⟨.back, s.line, s.quoted⟩
    else ⟨.normal, s.line || c == 10 || c == 13, s.quoted || c == q⟩

def scan (q : Nat) (s : Scan) (t : Text) : Scan := t.foldl (step q) s

theorem scan_cons (q : Nat) (s : Scan) (c : Nat) (t : Text) : scan q s (c :: t) = scan q (step q s c) t := rfl
theorem scan_append (q : Nat) (s : Scan) (a b : Text) : scan q s (a ++ b) = scan q (scan q s a) b :=
  List.foldl_append

theorem step_quoted {q : Nat} {s : Scan} {c : Nat} (h : s.quoted = true) : (step q s c).quoted = true := by
  unfold step
  split <;> (try split) <;> (try split) <;> simp [h]

theorem scan_quoted {q : Nat} {s : Scan} {t : Text} (h : s.quoted = true) : (scan q s t).quoted = true := by
  induction t generalizing s with
  | nil => exact h
  | cons c cs ih => exact ih (step_quoted h)

theorem scan_unquoted {q : Nat} {s : Scan} {a b : Text} (h : (scan q s (a ++ b)).quoted = false) :
    (scan q s a).quoted = false := by
  by_contra hc
  rw [scan_append, scan_quoted (by simpa using hc)] at h
  exact absurd h (by decide)

/-- Either no unescaped quote occurs, or the text splits at the first one. -/
theorem scan_split (q : Nat) (t : Text) : (scan q ⟨.normal, false, false⟩ t).quoted = false ∨
    ∃ b rest, t = b ++ q :: rest ∧ (scan q ⟨.normal, false, false⟩ b).quoted = false ∧
      (scan q ⟨.normal, false, false⟩ b).mode ≠ .back := by
  suffices H : ∀ (t : Text) (s : Scan), s.quoted = false → (scan q s t).quoted = false ∨
      ∃ b rest, t = b ++ q :: rest ∧ (scan q s b).quoted = false ∧ (scan q s b).mode ≠ .back from
    H t _ rfl
  intro t
  induction t with
  | nil => intro s hs; exact .inl hs
  | cons c cs ih =>
    intro s hs
    by_cases hb : c = q ∧ s.mode ≠ .back
    · obtain ⟨rfl, hm⟩ := hb
      exact .inr ⟨[], cs, rfl, hs, hm⟩
    · have hq : (step q s c).quoted = false := by
        unfold step
        split
        · split <;> exact hs
        · rename_i hm
          split
          · exact hs
          · simp only [hs, Bool.false_or, beq_eq_false_iff_ne]
            intro hc
            exact hb ⟨hc, by rw [hm]; decide⟩
        · rename_i hm
          split
          · exact hs
          · split
            · exact hs
            · simp only [hs, Bool.false_or, beq_eq_false_iff_ne]
              intro hc
              exact hb ⟨hc, by rw [hm]; decide⟩
      rcases ih _ hq with h | ⟨b, rest, h1, h2, h3⟩
      · exact .inl h
      · exact .inr ⟨c :: b, rest, by rw [h1]; rfl, h2, h3⟩

theorem push_push (a b : Text) (l : Lexed) : (l.push b).push a = l.push (a ++ b) := by
  simp [Lexed.push]

theorem lexStr_back {q d : Nat} (l : Bool) (h : d ≠ 13) (t : Text) :
    lexStr q l (92 :: d :: t) = (lexStr q l t).push [92, d] := by
  rw [lexStr.eq_def]; simp [h]
theorem lexStr_backCrLf (q : Nat) (l : Bool) (t : Text) :
    lexStr q l (92 :: 13 :: 10 :: t) = (lexStr q l t).push [92, 13, 10] := by
  rw [lexStr.eq_def]; simp
theorem lexStr_backCr {q e : Nat} (l : Bool) (h : e ≠ 10) (t : Text) :
    lexStr q l (92 :: 13 :: e :: t) = (lexStr q l (e :: t)).push [92, 13] := by
  rw [lexStr.eq_def]; simp [h]
theorem lexStr_cr (q : Nat) (l : Bool) (t : Text) : lexStr q l (13 :: t) = (lexStr q true t).push [13] := by
  rw [lexStr.eq_def]; simp
theorem lexStr_lf {q : Nat} (l : Bool) (h : q ≠ 10) (t : Text) :
    lexStr q l (10 :: t) = (lexStr q true t).push [10] := by
  rw [lexStr.eq_def]; simp [h.symm]
theorem lexStr_quote {q : Nat} (l : Bool) (h1 : q ≠ 92) (h2 : q ≠ 13) (t : Text) :
    lexStr q l (q :: t) = ⟨if l then .invalid else .string, [q], t⟩ := by
  rw [lexStr.eq_def]; simp [h1, h2]
theorem lexStr_plain {q c : Nat} (l : Bool) (h1 : c ≠ 92) (h2 : c ≠ 13) (h3 : c ≠ q) (h4 : c ≠ 10) (t : Text) :
    lexStr q l (c :: t) = (lexStr q l t).push [c] := by
  rw [lexStr.eq_def]; simp [h1, h2, h3, h4]

theorem step_plain {q c : Nat} (l : Bool) (h1 : c ≠ 92) (h3 : c ≠ q) :
    step q ⟨.normal, l, false⟩ c = ⟨.normal, l || c == 10 || c == 13, false⟩ := by
  have : (c == q) = false := by simpa using h3
  simp [step, h1, this]

theorem scan_ok {q : Nat} (hq : q = 34 ∨ q = 39) (line : Bool) (b rest : Text)
    (h1 : (scan q ⟨.normal, line, false⟩ b).quoted = false)
    (h2 : (scan q ⟨.normal, line, false⟩ b).mode ≠ .back) :
    lexStr q line (b ++ q :: rest) =
      ⟨if (scan q ⟨.normal, line, false⟩ b).line then .invalid else .string, b ++ [q], rest⟩ := by
  have hq1 : q ≠ 92 := by omega
  have hq2 : q ≠ 13 := by omega
  have hq3 : q ≠ 10 := by omega
  generalize hn : b.length = n
  induction n using Nat.strongRecOn generalizing line b with
  | ind n ih =>
    cases b with
    | nil =>
      rw [List.nil_append, lexStr_quote line hq1 hq2]
      rfl
    | cons c b =>
      have ih' : ∀ line' b', b'.length < n → (scan q ⟨.normal, line', false⟩ b').quoted = false →
          (scan q ⟨.normal, line', false⟩ b').mode ≠ .back →
          lexStr q line' (b' ++ q :: rest) =
            ⟨if (scan q ⟨.normal, line', false⟩ b').line then .invalid else .string, b' ++ [q], rest⟩ :=
        fun line' b' hl g1 g2 => ih b'.length hl line' b' g1 g2 rfl
      simp only [List.length_cons] at hn
      rw [List.cons_append]
      by_cases c92 : c = 92
      · subst c92
        cases b with
        | nil => simp [scan, step] at h2
        | cons d b =>
          simp only [List.length_cons] at hn
          by_cases d13 : d = 13
          · subst d13
            cases b with
            | nil =>
              rw [List.cons_append, List.nil_append, lexStr_backCr line hq3, lexStr_quote line hq1 hq2]
              simp [Lexed.push, scan, step]
            | cons e b =>
              simp only [List.length_cons] at hn
              by_cases e10 : e = 10
              · subst e10
                have hs : scan q ⟨.normal, line, false⟩ (92 :: 13 :: 10 :: b) =
                    scan q ⟨.normal, line, false⟩ b := by simp [scan_cons, step]
                rw [hs] at h1 h2 ⊢
                rw [List.cons_append, List.cons_append, lexStr_backCrLf, ih' line b (by omega) h1 h2]
                rfl
              · have hs : scan q ⟨.normal, line, false⟩ (92 :: 13 :: e :: b) =
                    scan q ⟨.normal, line, false⟩ (e :: b) := by
                  simp [scan_cons, step, e10]
                rw [hs] at h1 h2 ⊢
                have := ih' line (e :: b) (by simp only [List.length_cons]; omega) h1 h2
                rw [List.cons_append] at this
                rw [List.cons_append, List.cons_append, lexStr_backCr line e10, this]
                rfl
          · have hs : scan q ⟨.normal, line, false⟩ (92 :: d :: b) = scan q ⟨.normal, line, false⟩ b := by
              simp [scan_cons, step, d13]
            rw [hs] at h1 h2 ⊢
            rw [List.cons_append, lexStr_back line d13, ih' line b (by omega) h1 h2]
            rfl
      · have hcq : c ≠ q := by
          rintro rfl
          rw [scan_cons, scan_quoted (by simp [step, c92])] at h1
          exact absurd h1 (by decide)
        rw [scan_cons, step_plain line c92 hcq] at h1 h2 ⊢
        have := ih' _ b (by omega) h1 h2
        by_cases c13 : c = 13
        · subst c13
          rw [lexStr_cr]
          simp only [Nat.reduceBEq, Bool.or_false, Bool.or_true] at this h1 h2 ⊢
          rw [this]; rfl
        · by_cases c10 : c = 10
          · subst c10
            rw [lexStr_lf line hq3]
            simp only [Nat.reduceBEq, Bool.or_false, Bool.or_true] at this h1 h2 ⊢
            rw [this]; rfl
          · have e1 : (c == 13) = false := by simpa using c13
            have e2 : (c == 10) = false := by simpa using c10
            rw [lexStr_plain line c92 c13 hcq c10]
            simp only [e1, e2, Bool.or_false] at this h1 h2 ⊢
            rw [this]; rfl

theorem scan_eof {q : Nat} (hq : q = 34 ∨ q = 39) (line : Bool) (b : Text)
    (h1 : (scan q ⟨.normal, line, false⟩ b).quoted = false) :
    lexStr q line b = ⟨.invalid, b, []⟩ := by
  have hq3 : q ≠ 10 := by omega
  have nilc : ∀ l, lexStr q l [] = ⟨.invalid, [], []⟩ := by
    intro l; rw [lexStr.eq_def]
  generalize hn : b.length = n
  induction n using Nat.strongRecOn generalizing line b with
  | ind n ih =>
    cases b with
    | nil => exact nilc line
    | cons c b =>
      have ih' : ∀ line' b', b'.length < n → (scan q ⟨.normal, line', false⟩ b').quoted = false →
          lexStr q line' b' = ⟨.invalid, b', []⟩ :=
        fun line' b' hl g1 => ih b'.length hl line' b' g1 rfl
      simp only [List.length_cons] at hn
      by_cases c92 : c = 92
      · subst c92
        cases b with
        | nil => rw [lexStr.eq_def]; simp
        | cons d b =>
          simp only [List.length_cons] at hn
          by_cases d13 : d = 13
          · subst d13
            cases b with
            | nil => rw [lexStr.eq_def]; simp [nilc, Lexed.push]
            | cons e b =>
              simp only [List.length_cons] at hn
              by_cases e10 : e = 10
              · subst e10
                have hs : scan q ⟨.normal, line, false⟩ (92 :: 13 :: 10 :: b) =
                    scan q ⟨.normal, line, false⟩ b := by simp [scan_cons, step]
                rw [hs] at h1
                rw [lexStr_backCrLf, ih' line b (by omega) h1]
                rfl
              · have hs : scan q ⟨.normal, line, false⟩ (92 :: 13 :: e :: b) =
                    scan q ⟨.normal, line, false⟩ (e :: b) := by
                  simp [scan_cons, step, e10]
                rw [hs] at h1
                rw [lexStr_backCr line e10, ih' line (e :: b) (by simp only [List.length_cons]; omega) h1]
                rfl
          · have hs : scan q ⟨.normal, line, false⟩ (92 :: d :: b) = scan q ⟨.normal, line, false⟩ b := by
              simp [scan_cons, step, d13]
            rw [hs] at h1
            rw [lexStr_back line d13, ih' line b (by omega) h1]
            rfl
      · have hcq : c ≠ q := by
          rintro rfl
          rw [scan_cons, scan_quoted (by simp [step, c92])] at h1
          exact absurd h1 (by decide)
        rw [scan_cons, step_plain line c92 hcq] at h1
        have := ih' _ b (by omega) h1
        by_cases c13 : c = 13
        · subst c13
          rw [lexStr_cr]
          simp only [Nat.reduceBEq, Bool.or_false, Bool.or_true] at this h1 ⊢
          rw [this]; rfl
        · by_cases c10 : c = 10
          · subst c10
            rw [lexStr_lf line hq3]
            simp only [Nat.reduceBEq, Bool.or_false, Bool.or_true] at this h1 ⊢
            rw [this]; rfl
          · have e1 : (c == 13) = false := by simpa using c13
            have e2 : (c == 10) = false := by simpa using c10
            rw [lexStr_plain line c92 c13 hcq c10]
            simp only [e1, e2, Bool.or_false] at this h1 ⊢
            rw [this]; rfl

theorem scan_safe {q : Nat} (hq : q = 34 ∨ q = 39) {e : Text} (h : ∀ d ∈ e, Safe d) (line : Bool) (t : Text) :
    scan q ⟨.normal, line, false⟩ (e ++ t) = scan q ⟨.normal, line, false⟩ t := by
  induction e with
  | nil => rfl
  | cons d e ih =>
    have hd := h d List.mem_cons_self
    unfold Safe at hd
    have hs : step q ⟨.normal, line, false⟩ d = ⟨.normal, line, false⟩ := by
      have hdq : d ≠ q := by omega
      have e1 : (d == 13) = false := by simpa using hd.2.2.1
      have e2 : (d == 10) = false := by simpa using hd.2.1
      rw [step_plain line hd.1 hdq, e1, e2]
      simp
    rw [List.cons_append, scan_cons, hs]
    exact ih (fun x hx => h x (List.mem_cons_of_mem _ hx))

/-- Over an escape the lexer is back between characters. -/
theorem scan_escape {q : Nat} (hq : q = 34 ∨ q = 39) {e t : Text} (h : Plain e t) (line : Bool) :
    (scan q ⟨.normal, line, false⟩ (92 :: (e ++ t)) = scan q ⟨.normal, line, false⟩ t) ∨
      (t = [] ∧ scan q ⟨.normal, line, false⟩ (92 :: (e ++ t)) = ⟨.backCr, line, false⟩) := by
  rcases h with ⟨c, e', rfl, h1, h2⟩ | rfl
  · by_cases c13 : c = 13
    · subst c13
      obtain ⟨rfl, hn⟩ := h2 rfl
      cases t with
      | nil => exact .inr ⟨rfl, by simp [scan, step]⟩
      | cons x t =>
        have : x ≠ 10 := hn x (by simp)
        refine .inl ?_
        simp [scan_cons, step, this]
    · refine .inl ?_
      rw [List.cons_append, scan_cons, scan_cons]
      rw [show step q (step q ⟨.normal, line, false⟩ 92) c = ⟨.normal, line, false⟩ by simp [step, c13]]
      exact scan_safe hq h1 line t
  · exact .inl (by simp [scan_cons, step])

/-- The lexer over what the decoder accepts: it ends between characters and saw no line break. -/
theorem cut_scan {q : Nat} (hq : q = 34 ∨ q = 39) {t : Text} {us : List Nat} (h : Cut false t us)
    (hu : (scan q ⟨.normal, false, false⟩ t).quoted = false) :
    (scan q ⟨.normal, false, false⟩ t).mode ≠ .back ∧ (scan q ⟨.normal, false, false⟩ t).line = false := by
  induction h with
  | done => simp [scan]
  | char h1 h2 _ ih =>
    rename_i c cs us _
    obtain ⟨h10, h13⟩ := h2 rfl
    have hcq : c ≠ q := by
      rintro rfl
      rw [scan_cons, scan_quoted (by simp [step, h1])] at hu
      exact absurd hu (by decide)
    have hs : step q ⟨.normal, false, false⟩ c = ⟨.normal, false, false⟩ := by
      simp [step, h1, h10, h13, hcq]
    rw [scan_cons, hs] at hu ⊢
    exact ih hu
  | escape he _ ih =>
    rename_i e cs u us _
    rcases scan_escape hq (or_plain he) false with hs | ⟨rfl, hs⟩
    · rw [hs] at hu ⊢
      exact ih hu
    · rw [hs]; simp

theorem cut_chars {q : Nat} (hq : q = 34 ∨ q = 39) {t : Text} {us : List Nat} (h : Cut false t us)
    (hu : (scan q ⟨.normal, false, false⟩ t).quoted = false) (hh : ¬ HighOctal t) :
    StringChars true q t [] us := by
  induction h with
  | done => exact .done
  | char h1 h2 _ ih =>
    rename_i c cs us _
    obtain ⟨h10, h13⟩ := h2 rfl
    have hcq : c ≠ q := by
      rintro rfl
      rw [scan_cons, scan_quoted (by simp [step, h1])] at hu
      exact absurd hu (by decide)
    have hs : step q ⟨.normal, false, false⟩ c = ⟨.normal, false, false⟩ := by
      simp [step, h1, h10, h13, hcq]
    rw [scan_cons, hs] at hu
    refine .char hcq h1 h10 h13 (ih hu ?_)
    rintro ⟨pre, a, b, d, post, hp, hr⟩
    exact hh ⟨c :: pre, a, b, d, post, by rw [hp]; rfl, hr⟩
  | escape he _ ih =>
    rename_i e cs u us _
    have hu' : (scan q ⟨.normal, false, false⟩ cs).quoted = false := by
      rcases scan_escape hq (or_plain he) false with hs | ⟨rfl, hs⟩
      · rw [hs] at hu; exact hu
      · rfl
    have hcs := ih hu' (by
      rintro ⟨pre, a, b, d, post, hp, hr⟩
      exact hh ⟨92 :: (e ++ pre), a, b, d, post, by rw [hp]; simp, hr⟩)
    rcases he with he | ⟨a, b, c, rfl, h1, h2, h3, h4⟩
    · exact .escape (by rw [List.append_nil]; exact he) hcs
    · exact absurd ⟨[], a, b, c, cs, rfl, h1, h2, h3, h4⟩ hh

theorem chars_cut {q : Nat} {t : Text} {us : List Nat} (h : StringChars true q t [] us) : Cut false t us := by
  generalize hx : ([] : Text) = x at h
  induction h with
  | done => exact .done
  | char h1 h2 h3 h4 _ ih => exact .char h2 (fun _ => ⟨h3, h4⟩) (ih hx)
  | escape he _ ih =>
    subst hx
    rw [List.append_nil] at he
    exact .escape (.inl he) (ih rfl)

theorem chars_scan {q : Nat} (hq : q = 34 ∨ q = 39) {t : Text} {us : List Nat}
    (h : StringChars true q t [] us) : (scan q ⟨.normal, false, false⟩ t).quoted = false := by
  generalize hx : ([] : Text) = x at h
  induction h with
  | done => rfl
  | char h1 h2 h3 h4 _ ih =>
    rename_i c cs rest us _
    have hs : step q ⟨.normal, false, false⟩ c = ⟨.normal, false, false⟩ := by
      simp [step, h1, h2, h3, h4]
    rw [scan_cons, hs]
    exact ih hx
  | escape he _ ih =>
    subst hx
    rw [List.append_nil] at he
    rcases scan_escape hq (esc_plain he) false with hs | ⟨rfl, hs⟩
    · rw [hs]; exact ih rfl
    · rw [hs]

/-- The lexer stops exactly at the end of a string literal. -/
theorem lexStr_chars {q : Nat} (hq : q = 34 ∨ q = 39) {body : Text} {us : List Nat} (rest : Text)
    (h : StringChars true q body [] us) :
    lexStr q false (body ++ q :: rest) = ⟨.string, body ++ [q], rest⟩ := by
  have h1 := chars_scan hq h
  have h2 := cut_scan hq (chars_cut h) h1
  rw [scan_ok hq false body rest h1 h2.1, h2.2]
  rfl

/-! ## Legacy escapes -/

theorem legacy_skip {c : Nat} (h : c ≠ 92) (s : Text) : findLegacy (c :: s) = findLegacy s := by
  rw [findLegacy.eq_def]
  simp only [if_neg h]

theorem legacy_safe {e : Text} (h : ∀ d ∈ e, Safe d) (s : Text) : findLegacy (e ++ s) = findLegacy s := by
  induction e with
  | nil => rfl
  | cons d e ih =>
    rw [List.cons_append, legacy_skip (h d List.mem_cons_self).1]
    exact ih (fun x hx => h x (List.mem_cons_of_mem _ hx))

theorem legacy_plain {e t : Text} (h : Plain e t) (hd : ∀ c ∈ e.head?, ¬ DecimalDigit c) :
    findLegacy (92 :: (e ++ t)) = findLegacy t := by
  have key : ∀ (c : Nat) (x : Text), ¬ DecimalDigit c → findLegacy (92 :: c :: x) = findLegacy x := by
    intro c x hc
    unfold DecimalDigit at hc
    rw [findLegacy.eq_def]
    simp only [if_true]
    rw [if_neg (by omega), if_neg (by omega)]
  rcases h with ⟨c, e', rfl, h1, _⟩ | rfl
  · rw [List.cons_append, key c _ (hd c (by simp)), legacy_safe h1]
  · exact (key 13 (10 :: t) (by unfold DecimalDigit; omega)).trans (legacy_skip (by decide) t)

theorem legacy_strict {e t : Text} {u : List Nat} (h : EscapeSeq false e t u) :
    findLegacy (92 :: (e ++ t)) = findLegacy t := by
  by_cases h0 : e = [48]
  · subst h0
    have hn : NextNot DecimalDigit t := by
      cases h with
      | single h => simp [singleEscapes] at h
      | nonEscape h => exact absurd h.2.1 (by unfold DecimalDigit; omega)
      | null h => exact h
      | octalZero h => exact absurd h (by decide)
      | octal1 h => exact absurd h (by decide)
      | nonOctal h => exact absurd h (by decide)
    cases t with
    | nil => rfl
    | cons x xs =>
      have : isDigit x = false := by
        rw [← Bool.not_eq_true, isDigit_iff]; exact hn x (by simp)
      simp [findLegacy, this]
  · refine legacy_plain (esc_plain h) ?_
    intro c hc hd
    cases h with
    | single h =>
      simp only [List.head?_cons, Option.mem_def, Option.some.injEq] at hc
      subst hc
      unfold DecimalDigit at hd
      simp [singleEscapes] at h
      omega
    | nonEscape h =>
      simp only [List.head?_cons, Option.mem_def, Option.some.injEq] at hc
      subst hc
      exact h.2.1 hd
    | null h => exact h0 rfl
    | hex h1 h2 =>
      simp only [List.head?_cons, Option.mem_def, Option.some.injEq] at hc
      unfold DecimalDigit at hd; omega
    | unicode h1 h2 h3 h4 =>
      simp only [List.head?_cons, Option.mem_def, Option.some.injEq] at hc
      unfold DecimalDigit at hd; omega
    | codePoint h1 h2 h3 =>
      simp only [List.head?_cons, Option.mem_def, Option.some.injEq] at hc
      unfold DecimalDigit at hd; omega
    | lf =>
      simp only [List.head?_cons, Option.mem_def, Option.some.injEq] at hc
      unfold DecimalDigit at hd; omega
    | ls =>
      simp only [List.head?_cons, Option.mem_def, Option.some.injEq] at hc
      unfold DecimalDigit at hd; omega
    | ps =>
      simp only [List.head?_cons, Option.mem_def, Option.some.injEq] at hc
      unfold DecimalDigit at hd; omega
    | cr h =>
      simp only [List.head?_cons, Option.mem_def, Option.some.injEq] at hc
      unfold DecimalDigit at hd; omega
    | crlf =>
      simp only [List.head?_cons, Option.mem_def, Option.some.injEq] at hc
      unfold DecimalDigit at hd; omega
    | octalZero h => exact absurd h (by decide)
    | octal1 h => exact absurd h (by decide)
    | octal2 h => exact absurd h (by decide)
    | octal2High h => exact absurd h (by decide)
    | octal3 h => exact absurd h (by decide)
    | nonOctal h => exact absurd h (by decide)

theorem legacy_digit {c : Nat} (h1 : 49 ≤ c) (h2 : c ≤ 57) (t : Text) : findLegacy (92 :: c :: t) = true := by
  rw [findLegacy.eq_def]
  simp only [if_true]
  rw [if_neg (by omega), if_pos (by omega)]

theorem legacy_zero {c : Nat} (h : DecimalDigit c) (t : Text) : findLegacy (92 :: 48 :: c :: t) = true := by
  rw [findLegacy.eq_def]
  simp [(isDigit_iff c).2 h]

theorem legacy_upgrade {e t : Text} {u : List Nat} (h : EscapeSeq true e t u ∨ HighOct e)
    (hl : findLegacy (92 :: (e ++ t)) = false) : EscapeSeq false e t u := by
  rcases h with h | ⟨a, b, c, rfl, h1, h2, h3, h4⟩
  · cases h with
    | single h => exact .single h
    | nonEscape h => exact .nonEscape h
    | null h => exact .null h
    | hex h1 h2 => exact .hex h1 h2
    | unicode h1 h2 h3 h4 => exact .unicode h1 h2 h3 h4
    | codePoint h1 h2 h3 => exact .codePoint h1 h2 h3
    | lf => exact .lf
    | ls => exact .ls
    | ps => exact .ps
    | cr h => exact .cr h
    | crlf => exact .crlf
    | octalZero h h2 =>
      rw [List.cons_append, List.nil_append, legacy_zero (by unfold DecimalDigit; omega)] at hl
      exact absurd hl (by decide)
    | octal1 h h2 h3 h4 =>
      unfold OctalDigit at h2
      rw [List.cons_append, legacy_digit (by omega) (by omega)] at hl
      exact absurd hl (by decide)
    | octal2 h h2 h3 h4 h5 =>
      unfold OctalDigit at h2 h4
      rename_i a b
      by_cases ha : a = 48
      · subst ha
        rw [List.cons_append, List.cons_append, legacy_zero (by unfold DecimalDigit; omega)] at hl
        exact absurd hl (by decide)
      · rw [List.cons_append, legacy_digit (by omega) (by omega)] at hl
        exact absurd hl (by decide)
    | octal2High h h2 h3 h4 =>
      unfold OctalDigit at h2
      rw [List.cons_append, legacy_digit (by omega) (by omega)] at hl
      exact absurd hl (by decide)
    | octal3 h h2 h3 h4 h5 =>
      unfold OctalDigit at h2 h4
      rename_i a b c
      by_cases ha : a = 48
      · subst ha
        rw [List.cons_append, List.cons_append, legacy_zero (by unfold DecimalDigit; omega)] at hl
        exact absurd hl (by decide)
      · rw [List.cons_append, legacy_digit (by omega) (by omega)] at hl
        exact absurd hl (by decide)
    | nonOctal h h2 =>
      rw [List.cons_append, legacy_digit (by omega) (by omega)] at hl
      exact absurd hl (by decide)
  · rw [List.cons_append, legacy_digit (by omega) (by omega)] at hl
    exact absurd hl (by decide)

theorem chars_strict_legacy {q : Nat} {t : Text} {us : List Nat} (h : StringChars false q t [] us) :
    findLegacy t = false := by
  generalize hx : ([] : Text) = x at h
  induction h with
  | done => rfl
  | char h1 h2 h3 h4 _ ih => rw [legacy_skip h2]; exact ih hx
  | escape he _ ih =>
    subst hx
    rw [List.append_nil] at he
    rw [legacy_strict he]
    exact ih rfl

theorem chars_upgrade {q : Nat} {t : Text} {us : List Nat} (h : StringChars true q t [] us)
    (hl : findLegacy t = false) : StringChars false q t [] us := by
  generalize hx : ([] : Text) = x at h
  induction h with
  | done => exact .done
  | char h1 h2 h3 h4 _ ih => rw [legacy_skip h2] at hl; exact .char h1 h2 h3 h4 (ih hl hx)
  | escape he _ ih =>
    subst hx
    rw [List.append_nil] at he
    have hs := legacy_upgrade (.inl he) hl
    rw [legacy_strict hs] at hl
    exact .escape (by rw [List.append_nil]; exact hs) (ih hl rfl)

/-! ## Templates -/

/-- What ends a template part. -/
def Closes (rest : Text) : Prop := (∃ r, rest = 96 :: r) ∨ ∃ r, rest = 36 :: 123 :: r

theorem closes_delimited {rest : Text} (h : Closes rest) : Delimited rest := by
  intro c hc hd
  unfold DecimalDigit at hd
  rcases h with ⟨r, rfl⟩ | ⟨r, rfl⟩ <;> simp at hc <;> omega

theorem closes_brace {rest : Text} (h : Closes rest) : NextNot (· = 123) rest := by
  intro c hc hd
  rcases h with ⟨r, rfl⟩ | ⟨r, rfl⟩ <;> simp at hc <;> omega

theorem lexTpl_safe {e : Text} (h : ∀ d ∈ e, Safe d) (t : Text) : lexTpl (e ++ t) = (lexTpl t).push e := by
  induction e with
  | nil => simp [Lexed.push]
  | cons d e ih =>
    have hd := h d List.mem_cons_self
    unfold Safe at hd
    rw [List.cons_append, lexTpl.eq_def]
    simp only
    rw [if_neg (by omega), if_neg (by omega), if_neg (by omega),
      ih (fun x hx => h x (List.mem_cons_of_mem _ hx)), push_push]
    rfl

theorem lexTpl_escape {e t : Text} (h : Plain e t) : lexTpl (92 :: (e ++ t)) = (lexTpl t).push (92 :: e) := by
  rcases h with ⟨c, e', rfl, h1, _⟩ | rfl
  · rw [List.cons_append, lexTpl.eq_def]
    simp only [if_true]
    rw [lexTpl_safe h1, push_push]
    rfl
  · rw [List.cons_append, lexTpl.eq_def]
    simp only [if_true]
    rw [List.cons_append, List.nil_append, lexTpl.eq_def]
    simp only
    rw [if_neg (by omega), if_neg (by omega), if_neg (by omega), push_push]
    rfl

theorem lexTpl_close {rest : Text} (h : Closes rest) :
    (∃ r, rest = 96 :: r ∧ lexTpl rest = ⟨.partEnd, [96], r⟩) ∨
      (∃ r, rest = 36 :: 123 :: r ∧ lexTpl rest = ⟨.part, [36, 123], r⟩) := by
  rcases h with ⟨r, rfl⟩ | ⟨r, rfl⟩
  · exact .inl ⟨r, rfl, by rw [lexTpl.eq_def]; simp⟩
  · exact .inr ⟨r, rfl, by rw [lexTpl.eq_def]; simp⟩

theorem lexTpl_plain {c : Nat} (h1 : c ≠ 92) (h2 : c ≠ 96) (h3 : c ≠ 36) (t : Text) :
    lexTpl (c :: t) = (lexTpl t).push [c] := by
  rw [lexTpl.eq_def]
  simp only [if_neg h1, if_neg h2, if_neg h3]

theorem lexTpl_dollar {t : Text} (hne : t ≠ []) (h : NextNot (· = 123) t) :
    lexTpl (36 :: t) = (lexTpl t).push [36] := by
  cases t with
  | nil => exact absurd rfl hne
  | cons d t =>
    have hd : d ≠ 123 := h d (by simp)
    rw [lexTpl.eq_def]
    simp [hd]

/-- The template lexer stops exactly at the end of the characters of a part. -/
theorem lexTpl_chars {cs rest : Text} {us : List Nat} (hr : Closes rest) (h : TemplateChars cs rest us) :
    lexTpl (cs ++ rest) = (lexTpl rest).push cs := by
  have hne : rest ≠ [] := by rcases hr with ⟨r, rfl⟩ | ⟨r, rfl⟩ <;> simp
  induction h with
  | done => simp [Lexed.push]
  | char h1 h2 h3 h4 _ ih =>
    rw [List.cons_append, lexTpl_plain h2 h1 h3, ih hr hne, push_push]; rfl
  | dollar hn _ ih =>
    rw [List.cons_append, lexTpl_dollar (by simp [hne]) hn, ih hr hne, push_push]; rfl
  | escape he _ ih =>
    rw [show ∀ (e cs rest : Text), 92 :: (e ++ cs) ++ rest = 92 :: (e ++ (cs ++ rest)) by simp,
      lexTpl_escape (esc_plain he), ih hr hne, push_push]; rfl
  | line hc _ ih =>
    rw [List.cons_append, lexTpl_plain (by omega) (by omega) (by omega), ih hr hne, push_push]; rfl
  | cr hn _ ih =>
    rw [List.cons_append, lexTpl_plain (by omega) (by omega) (by omega), ih hr hne, push_push]; rfl
  | crlf _ ih =>
    rw [List.cons_append, List.cons_append, lexTpl_plain (by omega) (by omega) (by omega),
      lexTpl_plain (by omega) (by omega) (by omega), ih hr hne, push_push, push_push]; rfl

theorem tdecode_complete {cs rest : Text} {us : List Nat} (hr : Delimited rest)
    (h : TemplateChars cs rest us) (hcr : 13 ∉ cs) (fuel : Nat) (hf : cs.length ≤ fuel) :
    decodeLit16 true fuel cs = .ok us ∧ findLegacy cs = false := by
  induction h generalizing fuel with
  | done => exact ⟨by cases fuel <;> rfl, rfl⟩
  | char h1 h2 h3 h4 _ ih =>
    cases fuel with
    | zero => simp at hf
    | succ fuel =>
      obtain ⟨g1, g2⟩ := ih hr (fun h => hcr (List.mem_cons_of_mem _ h)) fuel (by simpa using hf)
      exact ⟨by simp [decodeLit16, h2, g1], by rw [legacy_skip h2]; exact g2⟩
  | dollar hn _ ih =>
    cases fuel with
    | zero => simp at hf
    | succ fuel =>
      obtain ⟨g1, g2⟩ := ih hr (fun h => hcr (List.mem_cons_of_mem _ h)) fuel (by simpa using hf)
      exact ⟨by simp [decodeLit16, g1, utf16], by rw [legacy_skip (by decide)]; exact g2⟩
  | escape he _ ih =>
    rename_i e cs rest u us _
    have he' := esc_restrict hr he
    cases fuel with
    | zero => simp at hf
    | succ fuel =>
      have hne := plain_ne (esc_plain he)
      have hlen : cs.length ≤ fuel := by
        have : 0 < e.length := List.length_pos_iff.2 hne
        simp only [List.length_cons, List.length_append] at hf
        omega
      obtain ⟨g1, g2⟩ := ih hr (fun h => hcr (List.mem_cons_of_mem _ (List.mem_append_right _ h))) fuel hlen
      have hl := legacy_strict he'
      have hd := decodeEsc16_complete (esc_weaken he') (by
        rintro a b c t' rfl rfl h1 h2 h3 h4
        rw [List.cons_append, legacy_digit (by omega) (by omega), g2] at hl
        exact absurd hl (by decide))
      exact ⟨by simp only [decodeLit16, if_pos, hd, g1], by rw [hl]; exact g2⟩
  | line hc _ ih =>
    cases fuel with
    | zero => simp at hf
    | succ fuel =>
      obtain ⟨g1, g2⟩ := ih hr (fun h => hcr (List.mem_cons_of_mem _ h)) fuel (by simpa using hf)
      rename_i c cs rest us _
      have hu : utf16 c = [c] := by unfold utf16; rw [if_pos (by omega)]
      have h92 : c ≠ 92 := by omega
      exact ⟨by simp [decodeLit16, h92, g1, hu], by rw [legacy_skip h92]; exact g2⟩
  | cr hn _ ih => exact absurd List.mem_cons_self hcr
  | crlf _ ih => exact absurd List.mem_cons_self hcr

/-- How the template lexer cuts a part. -/
inductive Tpl : Text → Text → Prop where
  | done {rest : Text} : Tpl [] rest
  | char {c : Nat} {cs rest : Text} : c ≠ 92 → c ≠ 96 → c ≠ 36 → Tpl cs rest → Tpl (c :: cs) rest
  | dollar {cs rest : Text} : NextNot (· = 123) (cs ++ rest) → Tpl cs rest → Tpl (36 :: cs) rest
  | pair {d : Nat} {cs rest : Text} : Tpl cs rest → Tpl (92 :: d :: cs) rest

theorem lexTpl_sound (s : Text) (h : (lexTpl s).kind ≠ .invalid) :
    ∃ cs rest, Closes rest ∧ s = cs ++ rest ∧ lexTpl s = (lexTpl rest).push cs ∧ Tpl cs rest := by
  generalize hn : s.length = n
  induction n using Nat.strongRecOn generalizing s with
  | ind n ih =>
    cases s with
    | nil => simp [lexTpl] at h
    | cons c s =>
      simp only [List.length_cons] at hn
      by_cases c92 : c = 92
      · subst c92
        cases s with
        | nil => simp [lexTpl] at h
        | cons d t =>
          simp only [List.length_cons] at hn
          have he : lexTpl (92 :: d :: t) = (lexTpl t).push [92, d] := by simp [lexTpl]
          rw [he] at h ⊢
          obtain ⟨cs, rest, h1, h2, h3, h4⟩ := ih t.length (by omega) t h rfl
          exact ⟨92 :: d :: cs, rest, h1, by rw [h2]; rfl, by rw [h3, push_push]; rfl, .pair h4⟩
      · by_cases c96 : c = 96
        · subst c96
          exact ⟨[], _, .inl ⟨s, rfl⟩, rfl, by simp [Lexed.push], .done⟩
        · by_cases c36 : c = 36
          · subst c36
            cases s with
            | nil => simp [lexTpl] at h
            | cons d t =>
              by_cases hd : d = 123
              · subst hd
                exact ⟨[], _, .inr ⟨t, rfl⟩, rfl, by simp [Lexed.push], .done⟩
              · have hnn : NextNot (· = 123) (d :: t) := by
                  intro x hx
                  simp only [List.head?_cons, Option.mem_def, Option.some.injEq] at hx
                  omega
                have he := lexTpl_dollar (by simp) hnn
                rw [he] at h ⊢
                obtain ⟨cs, rest, h1, h2, h3, h4⟩ := ih (d :: t).length (by omega) (d :: t) h rfl
                exact ⟨36 :: cs, rest, h1, by rw [h2]; rfl, by rw [h3, push_push]; rfl,
                  .dollar (h2 ▸ hnn) h4⟩
          · rw [lexTpl_plain c92 c96 c36] at h ⊢
            obtain ⟨cs, rest, h1, h2, h3, h4⟩ := ih s.length (by omega) s h rfl
            exact ⟨c :: cs, rest, h1, by rw [h2]; rfl, by rw [h3, push_push]; rfl, .char c92 c96 c36 h4⟩

theorem tpl_safe {e cs rest : Text} (hs : ∀ d ∈ e, Safe d) (h : Tpl (e ++ cs) rest) : Tpl cs rest := by
  induction e with
  | nil => exact h
  | cons d e ih =>
    have hd := hs d List.mem_cons_self
    unfold Safe at hd
    refine ih (fun x hx => hs x (List.mem_cons_of_mem _ hx)) ?_
    generalize hx : d :: e ++ cs = x at h
    cases h with
    | done => simp at hx
    | char h1 h2 h3 h4 =>
      simp only [List.cons_append, List.cons.injEq] at hx
      rw [hx.2]; exact h4
    | dollar h1 h2 =>
      simp only [List.cons_append, List.cons.injEq] at hx
      omega
    | pair h1 =>
      simp only [List.cons_append, List.cons.injEq] at hx
      omega

theorem cut_tpl {cs rest : Text} {us : List Nat} (hr : Closes rest) (h : Cut true cs us) (ht : Tpl cs rest)
    (hl : findLegacy cs = false) (hcr : 13 ∉ cs) : TemplateChars cs rest us := by
  induction h with
  | done => exact .done
  | char h1 h2 _ ih =>
    rename_i c cs us _
    rw [legacy_skip h1] at hl
    have hcr' : 13 ∉ cs := fun h => hcr (List.mem_cons_of_mem _ h)
    have h13 : c ≠ 13 := fun h => hcr (h ▸ List.mem_cons_self)
    generalize hx : c :: cs = x at ht
    cases ht with
    | done => simp at hx
    | char g1 g2 g3 g4 =>
      simp only [List.cons.injEq] at hx
      obtain ⟨rfl, rfl⟩ := hx
      have hrec := ih g4 hl hcr'
      by_cases hc : c = 10 ∨ c = 0x2028 ∨ c = 0x2029
      · have hu : utf16 c = [c] := by unfold utf16; rw [if_pos (by omega)]
        rw [hu]
        exact .line hc hrec
      · exact .char g2 g1 g3 (by unfold LineTerminator; omega) hrec
    | dollar g1 g2 =>
      simp only [List.cons.injEq] at hx
      obtain ⟨rfl, rfl⟩ := hx
      exact .dollar g1 (ih g2 hl hcr')
    | pair g1 =>
      simp only [List.cons.injEq] at hx
      exact absurd hx.1 h1
  | escape he _ ih =>
    rename_i e cs u us _
    have hesc := legacy_upgrade he hl
    rw [legacy_strict hesc] at hl
    have hcr' : 13 ∉ cs := fun h => hcr (List.mem_cons_of_mem _ (List.mem_append_right _ h))
    refine .escape (esc_extend (closes_delimited hr) hesc) (ih ?_ hl hcr')
    rcases esc_plain hesc with ⟨c0, e', rfl, hsafe, h13⟩ | rfl
    · generalize hx : 92 :: (c0 :: e' ++ cs) = x at ht
      cases ht with
      | done => simp at hx
      | char g1 g2 g3 g4 =>
        simp only [List.cons.injEq] at hx
        exact absurd hx.1.symm g1
      | dollar g1 g2 => simp at hx
      | pair g1 =>
        simp only [List.cons_append, List.cons.injEq, true_and] at hx
        rw [← hx.2] at g1
        exact tpl_safe hsafe g1
    · exact absurd (by simp) hcr

/-! ## Emitted literals -/

theorem decodeEsc16_strict {e t : Text} {u : List Nat} (h : EscapeSeq false e t u) :
    decodeEsc16 (e ++ t) = .ok (u, t) := by
  refine decodeEsc16_complete (esc_weaken h) ?_
  rintro a b c t' rfl rfl h1 h2 h3 h4
  generalize hx : [a, b] = x at h
  cases h with
  | octal2 g => exact absurd g (by decide)
  | octal2High g => exact absurd g (by decide)
  | crlf =>
    simp only [List.cons.injEq] at hx
    omega
  | codePoint g1 g2 g3 => simp at hx
  | _ => simp at hx

theorem decode16_strict {q : Nat} {body : Text} {us : List Nat} {allow : Bool}
    (h : StringChars false q body [] us) (fuel : Nat) (hf : body.length ≤ fuel) :
    decodeLit16 allow fuel body = .ok us := by
  generalize hx : ([] : Text) = x at h
  induction h generalizing fuel with
  | done => cases fuel <;> rfl
  | char h1 h2 h3 h4 _ ih =>
    cases fuel with
    | zero => simp at hf
    | succ fuel =>
      simp only [decodeLit16, if_neg h2, ih fuel (by simpa using hf) hx]
      rw [if_neg (by simp [h3, h4])]
  | escape he _ ih =>
    rename_i e cs rest u us _
    subst hx
    rw [List.append_nil] at he
    cases fuel with
    | zero => simp at hf
    | succ fuel =>
      have hlen : cs.length ≤ fuel := by
        have : 0 < e.length := List.length_pos_iff.2 (plain_ne (esc_plain he))
        simp only [List.length_cons, List.length_append] at hf
        omega
      simp only [decodeLit16, if_pos, decodeEsc16_strict he, ih fuel hlen rfl]

theorem decodeEsc_of16 {s t : Text} {v : Nat} (h : decodeEsc16 s = .ok ([v], t)) (hv : v < 0xD800) :
    decodeEsc s = .ok ([v], t) := by
  have hf : fromU32 v = v := by unfold fromU32; rw [if_neg (by omega)]
  cases s with
  | nil => simp [decodeEsc16] at h
  | cons c s =>
    have h16 : ∀ x, utf16 x = [v] → x = v := by
      intro x hx
      unfold utf16 at hx
      split at hx <;> simp_all
    simp only [decodeEsc16] at h
    simp only [decodeEsc]
    by_cases c13 : c = 13
    · simp only [if_pos c13] at h ⊢
      cases s with
      | nil => simp at h
      | cons d t' => by_cases hd : d = 10 <;> simp [hd] at h
    simp only [if_neg c13] at h ⊢
    by_cases cl : c = 10 ∨ c = 0x2028 ∨ c = 0x2029
    · simp [if_pos cl] at h
    simp only [if_neg cl] at h ⊢
    by_cases c98 : c = 98
    · simp only [if_pos c98] at h ⊢; exact h
    simp only [if_neg c98] at h ⊢
    by_cases c102 : c = 102
    · simp only [if_pos c102] at h ⊢; exact h
    simp only [if_neg c102] at h ⊢
    by_cases c110 : c = 110
    · simp only [if_pos c110] at h ⊢; exact h
    simp only [if_neg c110] at h ⊢
    by_cases c114 : c = 114
    · simp only [if_pos c114] at h ⊢; exact h
    simp only [if_neg c114] at h ⊢
    by_cases c116 : c = 116
    · simp only [if_pos c116] at h ⊢; exact h
    simp only [if_neg c116] at h ⊢
    by_cases c118 : c = 118
    · simp only [if_pos c118] at h ⊢; exact h
    simp only [if_neg c118] at h ⊢
    by_cases co : isOctal c = true
    · simp only [if_pos co] at h ⊢; exact h
    simp only [if_neg co] at h ⊢
    by_cases c120 : c = 120
    · simp only [if_pos c120] at h ⊢; exact h
    simp only [if_neg c120] at h ⊢
    by_cases c117 : c = 117
    · simp only [if_pos c117] at h ⊢
      split at h
      · rename_i hb
        rw [if_pos hb]
        split at h
        · rename_i hm
          rw [if_pos hm]
          split at h
          · simp at h
          · rename_i hne
            rw [if_neg hne]
            split at h
            · simp at h
            · rename_i hle
              rw [if_neg hle]
              simp only [Except.ok.injEq, Prod.mk.injEq] at h ⊢
              refine ⟨?_, h.2⟩
              rw [h16 _ h.1, hf]
        · simp at h
      · rename_i hb
        rw [if_neg hb]
        split at h
        · simp at h
        · rename_i hlen
          rw [if_neg hlen]
          split at h
          · simp at h
          · rename_i hall
            rw [if_neg hall]
            simp only [Except.ok.injEq, Prod.mk.injEq, List.cons.injEq, and_true] at h
            obtain ⟨h, rfl⟩ := h
            rw [h, if_neg (by omega), hf]
    · simp only [if_neg c117] at h ⊢
      simp only [Except.ok.injEq, Prod.mk.injEq] at h ⊢
      exact ⟨by rw [h16 _ h.1], h.2⟩

/-- What one character is emitted as: itself, or an escape sequence for it. -/
def Emits (q : Nat) (f : Text → Text) : Prop :=
  f [] = [] ∧ ∀ (c : Nat) (cs : Text),
    (∃ e, f (c :: cs) = 92 :: (e ++ f cs) ∧ c < 0xD800 ∧ EscapeSeq false e (f cs) [c]) ∨
      (f (c :: cs) = c :: f cs ∧ c ≠ q ∧ c ≠ 92 ∧ c ≠ 10 ∧ c ≠ 13)

theorem emits_chars {q : Nat} {f : Text → Text} (h : Emits q f) (s : Text) :
    StringChars false q (f s) [] (utf16s s) := by
  induction s with
  | nil => rw [h.1]; exact .done
  | cons c cs ih =>
    rcases h.2 c cs with ⟨e, h1, h2, h3⟩ | ⟨h1, h2, h3, h4, h5⟩
    · rw [h1, show utf16s (c :: cs) = [c] ++ utf16s cs by
        simp only [utf16s, List.flatMap_cons]; rw [show utf16 c = [c] by unfold utf16; rw [if_pos (by omega)]]]
      exact .escape (by rw [List.append_nil]; exact h3) ih
    · rw [h1, show utf16s (c :: cs) = utf16 c ++ utf16s cs from rfl]
      exact .char h2 h3 h4 h5 ih

theorem emits_decode {q : Nat} {f : Text → Text} (h : Emits q f) (s : Text) (fuel : Nat)
    (hf : (f s).length ≤ fuel) : decodeLit false fuel (f s) = .ok s := by
  induction s generalizing fuel with
  | nil => rw [h.1]; cases fuel <;> rfl
  | cons c cs ih =>
    rcases h.2 c cs with ⟨e, h1, h2, h3⟩ | ⟨h1, h2, h3, h4, h5⟩
    · rw [h1] at hf ⊢
      cases fuel with
      | zero => simp at hf
      | succ fuel =>
        have hd := decodeEsc_of16 (decodeEsc16_strict h3) h2
        have hl : (f cs).length ≤ fuel := by
          simp only [List.length_cons, List.length_append] at hf; omega
        simp only [decodeLit, if_pos, hd, ih fuel hl]
        rfl
    · rw [h1] at hf ⊢
      cases fuel with
      | zero => simp at hf
      | succ fuel =>
        simp only [decodeLit, if_neg h3, ih fuel (by simpa using hf)]
        rw [if_neg (by simp [h4, h5])]

theorem hexUpper_digit {n : Nat} (h : n < 16) : HexDigit (hexUpper n) ∧ hexDigitValue (hexUpper n) = n := by
  unfold hexUpper HexDigit hexDigitValue
  split
  · exact ⟨by omega, by rw [if_pos (by omega)]; omega⟩
  · exact ⟨by omega, by rw [if_neg (by omega), if_pos (by omega)]; omega⟩

theorem hexLower_digit {n : Nat} (h : n < 16) : HexDigit (hexLower n) ∧ hexDigitValue (hexLower n) = n := by
  unfold hexLower HexDigit hexDigitValue
  split
  · exact ⟨by omega, by rw [if_pos (by omega)]; omega⟩
  · exact ⟨by omega, by rw [if_neg (by omega), if_neg (by omega)]; omega⟩

theorem hex2 {a b : Nat} {t : Text} {c : Nat} (ha : HexDigit a ∧ hexDigitValue a = c / 16)
    (hb : HexDigit b ∧ hexDigitValue b = c % 16) : EscapeSeq false [120, a, b] t [c] := by
  have := EscapeSeq.hex (legacy := false) (rest := t) ha.1 hb.1
  rw [show hexValue 0 [a, b] = c by simp only [hexValue, ha.2, hb.2]; omega] at this
  exact this

theorem ls_escape (t : Text) : EscapeSeq false [117, 50, 48, 50, 56] t [0x2028] :=
  EscapeSeq.unicode (legacy := false) (rest := t) (by unfold HexDigit; omega) (by unfold HexDigit; omega)
    (by unfold HexDigit; omega) (by unfold HexDigit; omega)

theorem ps_escape (t : Text) : EscapeSeq false [117, 50, 48, 50, 57] t [0x2029] :=
  EscapeSeq.unicode (legacy := false) (rest := t) (by unfold HexDigit; omega) (by unfold HexDigit; omega)
    (by unfold HexDigit; omega) (by unfold HexDigit; omega)

theorem escape_head {q : Nat} {d : Nat} {cs : Text} (h : ¬ DecimalDigit d) :
    NextNot DecimalDigit (escapeString q (d :: cs)) := by
  intro c hc
  simp only [escapeString] at hc
  unfold DecimalDigit at h ⊢
  split at hc
  · simp at hc; omega
  split at hc
  · simp at hc; omega
  split at hc
  · simp at hc; omega
  split at hc
  · simp at hc; omega
  split at hc
  · simp at hc; omega
  split at hc
  · simp at hc; omega
  split at hc
  · rcases cs with _ | ⟨x, xs⟩
    · simp at hc; omega
    · simp only at hc
      split at hc
      · simp at hc; omega
      · simp at hc; omega
  split at hc
  · simp at hc; omega
  split at hc
  · simp at hc; omega
  split at hc
  · simp [xEscapeUpper] at hc; omega
  · simp at hc; omega

theorem emits_escapeString {q : Nat} (hq : q = 34 ∨ q = 39) : Emits q (escapeString q) := by
  refine ⟨rfl, ?_⟩
  intro c cs
  simp only [escapeString]
  split
  · rename_i h; subst h
    exact .inl ⟨[92], by simp, by omega, .single (by decide)⟩
  split
  · rename_i h; obtain ⟨rfl, rfl⟩ := h
    exact .inl ⟨[34], by simp, by omega, .single (by decide)⟩
  split
  · rename_i h; obtain ⟨rfl, rfl⟩ := h
    exact .inl ⟨[39], by simp, by omega, .single (by decide)⟩
  split
  · rename_i h; subst h
    exact .inl ⟨[110], by simp, by omega, .single (by decide)⟩
  split
  · rename_i h; subst h
    exact .inl ⟨[114], by simp, by omega, .single (by decide)⟩
  split
  · rename_i h; subst h
    exact .inl ⟨[116], by simp, by omega, .single (by decide)⟩
  split
  · rename_i h; subst h
    cases cs with
    | nil => exact .inl ⟨[48], by simp, by omega, .null (by intro c hc; simp [escapeString] at hc)⟩
    | cons d cs =>
      by_cases hd : isDigit d = true
      · rw [if_pos hd]
        refine .inl ⟨[120, 48, 48], by simp, by omega, hex2 ?_ ?_⟩ <;>
          exact ⟨by unfold HexDigit; omega, by simp [hexDigitValue]⟩
      · rw [if_neg hd]
        exact .inl ⟨[48], by simp, by omega, .null (escape_head (by rw [← isDigit_iff]; exact hd))⟩
  split
  · rename_i h; subst h
    exact .inl ⟨[117, 50, 48, 50, 56], by simp, by omega, ls_escape _⟩
  split
  · rename_i h; subst h
    exact .inl ⟨[117, 50, 48, 50, 57], by simp, by omega, ps_escape _⟩
  split
  · refine .inl ⟨[120, hexUpper (c / 16), hexUpper (c % 16)], by simp [xEscapeUpper], by omega, ?_⟩
    exact hex2 (hexUpper_digit (by omega)) (hexUpper_digit (by omega))
  · exact .inr ⟨by simp, by omega, by omega, by omega, by omega⟩

theorem emits_minify : Emits 34 minifyEscape := by
  refine ⟨rfl, ?_⟩
  intro c cs
  simp only [minifyEscape]
  split
  · rename_i h; subst h
    exact .inl ⟨[34], by simp, by omega, .single (by decide)⟩
  split
  · rename_i h; subst h
    exact .inl ⟨[92], by simp, by omega, .single (by decide)⟩
  split
  · rename_i h; subst h
    exact .inl ⟨[110], by simp, by omega, .single (by decide)⟩
  split
  · rename_i h; subst h
    exact .inl ⟨[114], by simp, by omega, .single (by decide)⟩
  split
  · rename_i h; subst h
    exact .inl ⟨[116], by simp, by omega, .single (by decide)⟩
  split
  · rename_i h; subst h
    exact .inl ⟨[98], by simp, by omega, .single (by decide)⟩
  split
  · rename_i h; subst h
    exact .inl ⟨[102], by simp, by omega, .single (by decide)⟩
  split
  · rename_i h; subst h
    exact .inl ⟨[117, 50, 48, 50, 56], by simp, by omega, ls_escape _⟩
  split
  · rename_i h; subst h
    exact .inl ⟨[117, 50, 48, 50, 57], by simp, by omega, ps_escape _⟩
  split
  · refine .inl ⟨[120, hexLower (c / 16), hexLower (c % 16)], by simp [xEscapeLower], by omega, ?_⟩
    exact hex2 (hexLower_digit (by omega)) (hexLower_digit (by omega))
  · exact .inr ⟨by simp, by omega, by omega, by omega, by omega⟩

theorem segment_chars (s rest : Text) : TemplateChars (emitSegment s) rest (utf16s s) := by
  induction s with
  | nil => exact .done
  | cons c cs ih =>
    have esc : ∀ e : Text, c < 0xD800 → EscapeSeq false e (emitSegment cs ++ rest) [c] →
        TemplateChars (92 :: e ++ emitSegment cs) rest (utf16s (c :: cs)) := by
      intro e h1 h2
      rw [show utf16s (c :: cs) = [c] ++ utf16s cs by
        simp only [utf16s, List.flatMap_cons]; rw [show utf16 c = [c] by unfold utf16; rw [if_pos (by omega)]]]
      exact .escape h2 ih
    simp only [emitSegment]
    split
    · rename_i h; exact esc [92] (by omega) (by subst h; exact .single (by decide))
    split
    · rename_i h
      subst h
      have hne : NonEscape 96 :=
        ⟨by decide, by unfold DecimalDigit; omega, by decide, by decide, by unfold LineTerminator; omega⟩
      exact esc [96] (by omega) (.nonEscape hne)
    split
    · rename_i h
      subst h
      have hne : NonEscape 36 :=
        ⟨by decide, by unfold DecimalDigit; omega, by decide, by decide, by unfold LineTerminator; omega⟩
      exact esc [36] (by omega) (.nonEscape hne)
    split
    · rename_i h; exact esc [110] (by omega) (by subst h; exact .single (by decide))
    split
    · rename_i h; exact esc [114] (by omega) (by subst h; exact .single (by decide))
    split
    · rename_i h; exact esc _ (by omega) (by subst h; exact ls_escape _)
    split
    · rename_i h; exact esc _ (by omega) (by subst h; exact ps_escape _)
    split
    · exact esc [120, hexUpper (c / 16), hexUpper (c % 16)] (by omega)
        (hex2 (hexUpper_digit (by omega)) (hexUpper_digit (by omega)))
    · exact .char (by omega) (by omega) (by omega) (by unfold LineTerminator; omega) ih

theorem segment_no_cr (s : Text) : 13 ∉ emitSegment s := by
  induction s with
  | nil => simp [emitSegment]
  | cons c cs ih =>
    have hx : c < 0x20 → 13 ∉ xEscapeUpper c := by
      intro hc
      have h1 := (hexUpper_digit (n := c / 16) (by omega)).1
      have h2 := (hexUpper_digit (n := c % 16) (by omega)).1
      unfold HexDigit at h1 h2
      simp only [xEscapeUpper, List.mem_cons, List.not_mem_nil, or_false, not_or]
      omega
    simp only [emitSegment, List.mem_append, not_or]
    refine ⟨?_, ih⟩
    split
    · simp
    split
    · simp
    split
    · simp
    split
    · simp
    split
    · simp
    split
    · simp
    split
    · simp
    split
    · exact hx (by assumption)
    · simp only [List.mem_singleton]; omega

end Verif.Escape
