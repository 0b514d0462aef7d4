import Verif.Lex.Lemmas

/-! # The lexer on a token followed by a text -/

namespace Verif.Lex

/-! ## The longest operator -/

theorem fold_best (ts : Text) (ops : List Text) (best : Text) :
    let b := ops.foldl (fun best p => if p.isPrefixOf ts && best.length < p.length then p else best) best
    (b = best ∨ (b ∈ ops ∧ b.isPrefixOf ts = true)) ∧ best.length ≤ b.length ∧
      ∀ o ∈ ops, o.isPrefixOf ts = true → o.length ≤ b.length := by
  induction ops generalizing best with
  | nil => simp
  | cons o ops ih =>
    simp only [List.foldl_cons]
    by_cases h : (o.isPrefixOf ts && best.length < o.length) = true
    · rw [if_pos h]
      obtain ⟨h1, h2, h3⟩ := ih o
      simp only [Bool.and_eq_true, decide_eq_true_eq] at h
      refine ⟨?_, by omega, ?_⟩
      · rcases h1 with h1 | h1
        · right; rw [h1]; exact ⟨List.mem_cons_self, h.1⟩
        · right; exact ⟨List.mem_cons_of_mem _ h1.1, h1.2⟩
      · intro q hq hp
        rcases List.mem_cons.mp hq with rfl | hq
        · exact h2
        · exact h3 q hq hp
    · rw [if_neg h]
      obtain ⟨h1, h2, h3⟩ := ih best
      refine ⟨?_, h2, ?_⟩
      · rcases h1 with h1 | h1
        · left; exact h1
        · right; exact ⟨List.mem_cons_of_mem _ h1.1, h1.2⟩
      · intro q hq hp
        rcases List.mem_cons.mp hq with rfl | hq
        · simp only [hp, Bool.true_and, decide_eq_true_eq] at h; omega
        · exact h3 q hq hp

/-- The text of an operator, followed by the first character of the text, starts a longer operator. -/
def joinsNext (p rest : Text) : Bool := headIs (fun c => operators.any fun o => (p ++ [c]).isPrefixOf o) rest

theorem prefix_iff {a b : Text} : a.isPrefixOf b = true ↔ ∃ t, b = a ++ t := by
  rw [List.isPrefixOf_iff_prefix]
  exact ⟨fun ⟨t, h⟩ => ⟨t, h.symm⟩, fun ⟨t, h⟩ => ⟨t, h.symm⟩⟩

theorem munch_append (p rest : Text) (hp : p ∈ operators) (hj : joinsNext p rest = false) :
    munch (p ++ rest) = p := by
  have hne : p ≠ [] := by
    have : ∀ p ∈ operators, p ≠ [] := by decide
    exact this p hp
  obtain ⟨h1, h2, h3⟩ := fold_best (p ++ rest) operators []
  have h4 := h3 p hp (prefix_iff.mpr ⟨rest, rfl⟩)
  rcases h1 with h1 | ⟨hb, hpre⟩
  · exfalso
    change munch (p ++ rest) = [] at h1
    change p.length ≤ (munch (p ++ rest)).length at h4
    rw [h1] at h4
    cases p with
    | nil => exact hne rfl
    | cons c r => simp at h4
  · change munch (p ++ rest) ∈ operators at hb
    change (munch (p ++ rest)).isPrefixOf (p ++ rest) = true at hpre
    change p.length ≤ (munch (p ++ rest)).length at h4
    obtain ⟨t, ht⟩ := prefix_iff.mp hpre
    rcases List.append_eq_append_iff.mp ht with ⟨u, hu, hv⟩ | ⟨u, hu, hv⟩
    · cases u with
      | nil => simpa using hu
      | cons c u =>
        exfalso
        simp only [hv, joinsNext, List.cons_append, headIs, List.any_eq_false] at hj
        exact hj _ hb (prefix_iff.mpr ⟨u, by rw [hu]; simp⟩)
    · have := congrArg List.length hu
      simp only [List.length_append] at this
      have hz : u = [] := List.length_eq_zero_iff.mp (by omega)
      subst hz
      simpa using hu.symm

theorem munch_mem (ts : Text) (h : munch ts ≠ []) : munch ts ∈ operators ∧ ∃ t, ts = munch ts ++ t := by
  obtain ⟨h1, _, _⟩ := fold_best ts operators []
  rcases h1 with h1 | ⟨h1, h2⟩
  · exact absurd h1 h
  · exact ⟨h1, prefix_iff.mp h2⟩

/-! ## Characters of operators -/

/-- The first characters of operators. -/
def opHeads : Text :=
  ['&', '*', '|', '}', '{', ']', '[', '^', '<', '>', ':', ',', '.', '=', '!', '-', ')', '(', '%', '+', '?',
   ';', '/', '~']

theorem op_head {p : Text} (hp : p ∈ operators) : ∃ c r, p = c :: r ∧ c ∈ opHeads := by
  have : ∀ p ∈ operators, headIs (fun c => opHeads.contains c) p = true := by decide
  have h := this p hp
  cases p with
  | nil => simp [headIs] at h
  | cons c r => exact ⟨c, r, rfl, by simpa [headIs] using h⟩

theorem idStart_ascii {U : Unicode} {c : Char} (h : isAscii c = true) :
    idStart U c = (c = '$' || c = '_' || c.isAlpha) := by simp [idStart, h]

theorem idPart_ascii {U : Unicode} {c : Char} (h : isAscii c = true) :
    idPart U c = (c = '$' || c = '_' || c.isDigit || c.isAlpha) := by simp [idPart, h]

theorem opHeads_facts (U : Unicode) {c : Char} (h : c ∈ opHeads) :
    isAscii c = true ∧ idStart U c = false ∧ idPart U c = false ∧ c.isDigit = false ∧ c.isAlpha = false ∧
    c ≠ '\\' ∧ c ≠ '"' ∧ c ≠ '\'' ∧ c ≠ '_' ∧ c ≠ '$' ∧ isLineTerminator c = false ∧
    isWhitespace c = false := by
  have key : ∀ c ∈ opHeads, isAscii c = true ∧ (c = '$' || c = '_' || c.isAlpha) = false ∧
      (c = '$' || c = '_' || c.isDigit || c.isAlpha) = false ∧ c.isDigit = false ∧ c.isAlpha = false ∧
      c ≠ '\\' ∧ c ≠ '"' ∧ c ≠ '\'' ∧ c ≠ '_' ∧ c ≠ '$' ∧ isLineTerminator c = false ∧
      isWhitespace c = false := by decide
  obtain ⟨h1, h2, h3, h4⟩ := key c h
  exact ⟨h1, by rw [idStart_ascii h1]; exact h2, by rw [idPart_ascii h1]; exact h3, h4⟩

theorem token_punct (U : Unicode) (m : Mode) (p rest : Text) (hp : p ∈ operators)
    (hm : p.head? = some '/' → m = .standard)
    (hd : p = ['.'] ∨ p = ['?', '.'] → headIs Char.isDigit rest = false)
    (hj : joinsNext p rest = false ∨
      (p = ['?'] ∧ headIs (· = '.') rest = true ∧ headIs Char.isDigit (rest.drop 1) = true)) :
    token U m (p ++ rest) = some (.punct, rest) := by
  obtain ⟨c, r, rfl, hc⟩ := op_head hp
  obtain ⟨_, h1, _, h2, _, h3, h4, h5, _⟩ := opHeads_facts U hc
  have h6 : (decide (c = '/') && decide (m = .slashIsRegex)) = false := by
    by_cases h : c = '/'
    · rw [hm (by simp [h])]; simp
    · simp [h]
  simp only [List.cons_append, token, h1, h2, h3, h4, h5, h6, if_false, Bool.false_eq_true,
    decide_false, Bool.or_self]
  split
  · rename_i h
    simp only [Bool.and_eq_true, decide_eq_true_eq] at h
    obtain ⟨rfl, h⟩ := h
    have : r = [] := by
      cases r with
      | nil => rfl
      | cons d q =>
        simp only [List.cons_append, headIs, decide_eq_true_eq] at h
        subst h
        have : ∀ p ∈ operators, ['<', '/'].isPrefixOf p = false := by decide
        have := this _ hp
        simp [List.isPrefixOf] at this
    subst this
    rfl
  · split
    · rename_i h
      simp only [Bool.and_eq_true, decide_eq_true_eq] at h
      obtain ⟨rfl, h⟩ := h
      exfalso
      cases r with
      | nil => rw [List.nil_append, hd (.inl rfl)] at h; exact Bool.false_ne_true h
      | cons d q =>
        have : ∀ p ∈ operators, ['.'].isPrefixOf p = true → headIs Char.isDigit (p.drop 1) = false := by
          decide
        have := this _ hp (by simp [List.isPrefixOf])
        simp [headIs] at this h
        rw [this] at h
        exact Bool.false_ne_true h
    · split
      · rename_i h
        simp only [Bool.and_eq_true, decide_eq_true_eq] at h
        obtain ⟨⟨rfl, h⟩, h'⟩ := h
        cases r with
        | nil => rfl
        | cons d q =>
          simp only [List.cons_append, headIs, decide_eq_true_eq] at h
          subst h
          exfalso
          cases q with
          | nil => simp [hd] at h'
          | cons d q =>
            have : ∀ p ∈ operators, ['?', '.'].isPrefixOf p = true →
              headIs Char.isDigit (p.drop 2) = false := by decide
            have := this _ hp (by simp [List.isPrefixOf])
            simp [headIs] at this h'
            rw [this] at h'
            exact Bool.false_ne_true h'
      · rename_i h
        rcases hj with hj | ⟨hq, hj, hj'⟩
        · have := munch_append _ rest hp hj
          rw [List.cons_append] at this
          rw [this]
          simp
        · simp only [List.cons.injEq] at hq
          obtain ⟨rfl, rfl⟩ := hq
          rw [List.nil_append, hj, hj'] at h
          simp at h

theorem token_punct_inv (U : Unicode) (m : Mode) (p : Text) (h : token U m p = some (.punct, [])) :
    p ∈ operators := by
  cases p with
  | nil => simp [token] at h
  | cons c r =>
    simp only [token] at h
    have hnum : ∀ (ts r : Text), numberEnd ts ≠ some (.punct, r) := by
      intro ts r hn
      simp only [numberEnd] at hn
      split at hn
      · simp only [radixEnd] at hn
        repeat' split at hn
        all_goals simp at hn
      · simp only [decimalEnd] at hn
        repeat' split at hn
        all_goals simp at hn
    split at h
    · simp at h
    split at h
    · simp at h
    split at h
    · exact absurd h (hnum _ _)
    split at h
    · simp at h
    split at h
    · simp at h
    split at h
    · rename_i h1
      simp only [Option.some.injEq, Prod.mk.injEq, true_and] at h
      subst h; simp [headIs] at h1
    split at h
    · exact absurd h (hnum _ _)
    split at h
    · rename_i h1
      simp only [Option.some.injEq, Prod.mk.injEq, true_and] at h
      subst h; simp [headIs] at h1
    split at h
    · simp at h
    · rename_i h1
      obtain ⟨h2, t, ht⟩ := munch_mem _ h1
      simp only [Option.some.injEq, Prod.mk.injEq, true_and] at h
      have h3 : t = [] := by
        have := congrArg (List.drop (munch (c :: r)).length) ht
        rw [h, List.drop_left] at this
        exact this.symm
      rw [h3, List.append_nil] at ht
      rw [ht]; exact h2

/-! ## What a token of each class looks like -/

/-- The first character of a token. -/
def HeadOf (U : Unicode) : Kind → Char → Prop
  | .word, c => idStart U c = true ∧ c ≠ '\\'
  | .number, c | .bigint, c => c.isDigit = true ∨ c = '.'
  | .string, c => c = '"' ∨ c = '\''
  | .regex, c => c = '/'
  | .punct, c => c ∈ opHeads

theorem digit_notStart (U : Unicode) {c : Char} (h : c.isDigit = true) : idStart U c = false ∧ c ≠ '\\' := by
  have h1 : c.toNat < 58 ∧ 48 ≤ c.toNat := by
    simp only [Char.isDigit, Bool.and_eq_true, decide_eq_true_eq, ge_iff_le, UInt32.le_iff_toNat_le] at h
    have : c.toNat = c.val.toNat := rfl
    simp at h
    omega
  have h2 : isAscii c = true := by simp [isAscii]; omega
  refine ⟨?_, by rintro rfl; revert h; decide⟩
  rw [idStart_ascii h2]
  have h3 : c ≠ '$' := by rintro rfl; revert h; decide
  have h4 : c ≠ '_' := by rintro rfl; revert h; decide
  have h5 : c.isAlpha = false := by
    simp only [Char.isAlpha, Char.isUpper, Char.isLower, Bool.or_eq_false_iff, Bool.and_eq_false_iff,
      decide_eq_false_iff_not, ge_iff_le, UInt32.le_iff_toNat_le]
    have : c.toNat = c.val.toNat := rfl
    simp
    omega
  simp [h3, h4, h5]

theorem numberEnd_kind {ts r : Text} {k : Kind} (h : numberEnd ts = some (k, r)) : k = .number ∨ k = .bigint := by
  simp only [numberEnd] at h
  split at h
  · simp only [radixEnd] at h
    repeat' split at h
    all_goals simp at h
    all_goals simp [← h.1]
  · simp only [decimalEnd] at h
    repeat' split at h
    all_goals simp at h
    all_goals simp [← h.1]

/-- The shape of a token that stands alone. -/
inductive Shape (U : Unicode) (m : Mode) : Kind → Text → Prop
  | word {c : Char} {r : Text} : c ≠ '\\' → idStart U c = true → wordEnd U r = some [] →
      Shape U m .word (c :: r)
  | digits {k : Kind} {c : Char} {r : Text} : c.isDigit = true → numberEnd (c :: r) = some (k, []) →
      Shape U m k (c :: r)
  | dot {k : Kind} {d : Char} {r : Text} : d.isDigit = true → numberEnd ('.' :: d :: r) = some (k, []) →
      Shape U m k ('.' :: d :: r)
  | string {c : Char} {r : Text} : c = '"' ∨ c = '\'' → stringEnd c .none r = some [] →
      Shape U m .string (c :: r)
  | regex {r : Text} : m = .slashIsRegex → regexEnd U false false r = some [] → Shape U m .regex ('/' :: r)
  | punct {p : Text} : p ∈ operators → Shape U m .punct p

theorem shape_of {U : Unicode} {m : Mode} {k : Kind} {cs : Text} (h : token U m cs = some (k, [])) :
    Shape U m k cs := by
  by_cases hk : k = .punct
  · subst hk; exact .punct (token_punct_inv U m cs h)
  cases cs with
  | nil => simp [token] at h
  | cons c r =>
    simp only [token] at h
    split at h
    · simp at h
    rename_i h1
    split at h
    · rename_i h2
      rw [Option.map_eq_some_iff] at h
      obtain ⟨x, hx, he⟩ := h
      simp only [Prod.mk.injEq] at he
      obtain ⟨rfl, rfl⟩ := he
      exact .word h1 h2 hx
    split at h
    · rename_i h2; exact .digits h2 h
    split at h
    · rename_i h2
      rw [Option.map_eq_some_iff] at h
      obtain ⟨x, hx, he⟩ := h
      simp only [Prod.mk.injEq] at he
      obtain ⟨rfl, rfl⟩ := he
      exact .string (by simpa using h2) hx
    split at h
    · rename_i h2
      rw [Option.map_eq_some_iff] at h
      obtain ⟨x, hx, he⟩ := h
      simp only [Prod.mk.injEq] at he
      obtain ⟨rfl, rfl⟩ := he
      simp only [Bool.and_eq_true, decide_eq_true_eq] at h2
      obtain ⟨rfl, h2⟩ := h2
      exact .regex h2 hx
    split at h
    · simp at h; exact absurd h.1.symm hk
    split at h
    · rename_i h2
      simp only [Bool.and_eq_true, decide_eq_true_eq] at h2
      obtain ⟨rfl, h2⟩ := h2
      cases r with
      | nil => simp [headIs] at h2
      | cons d r => exact .dot h2 h
    split at h
    · simp at h; exact absurd h.1.symm hk
    split at h
    · simp at h
    · simp at h; exact absurd h.1.symm hk

/-- What may stand behind a token: it does not continue it. -/
def Fits (U : Unicode) (k : Kind) (cs rest : Text) : Prop :=
  match k with
  | .word | .regex => headIs (fun c => idPart U c || c = '\\') rest = false
  | .number | .bigint => Stops rest ∧ (takesDot cs = true → headIs (· = '.') rest = false)
  | .string => True
  | .punct =>
    (cs = ['.'] ∨ cs = ['?', '.'] → headIs Char.isDigit rest = false) ∧
    (joinsNext cs rest = false ∨
      (cs = ['?'] ∧ headIs (· = '.') rest = true ∧ headIs Char.isDigit (rest.drop 1) = true))

theorem token_append (U : Unicode) (m : Mode) (k : Kind) (cs rest : Text)
    (h : token U m cs = some (k, [])) (hm : AskedFor m (k, cs)) (hf : Fits U k cs rest) :
    token U m (cs ++ rest) = some (k, rest) := by
  have hs := shape_of h
  cases hs with
  | word h1 h2 h3 =>
    simp only [List.cons_append, token, h1, h2, if_true, if_false]
    rw [wordEnd_append U _ _ h3 hf]
    rfl
  | @digits _ c r h1 h2 =>
    obtain ⟨h3, h4⟩ := digit_notStart U h1
    have hf' : Stops rest ∧ (takesDot (c :: r) = true → headIs (· = '.') rest = false) := by
      rcases numberEnd_kind h2 with rfl | rfl <;> exact hf
    simp only [List.cons_append, token, h3, h4, h1, if_true, if_false, Bool.false_eq_true]
    exact numberEnd_append (c :: r) rest k hf'.1 hf'.2 h2
  | @dot _ d r h1 h2 =>
    have hf' : Stops rest ∧ (takesDot ('.' :: d :: r) = true → headIs (· = '.') rest = false) := by
      rcases numberEnd_kind h2 with rfl | rfl <;> exact hf
    have h3 : idStart U '.' = false := by rw [idStart_ascii (by decide)]; decide
    have h4 : Char.isDigit '.' = false := by decide
    simp only [List.cons_append, token, h3, h4, headIs, h1, Bool.false_eq_true, if_false]
    simp
    exact numberEnd_append ('.' :: d :: r) rest k hf'.1 hf'.2 h2
  | @string c r h1 h2 =>
    have h3 : idStart U c = false ∧ c.isDigit = false ∧ c ≠ '\\' := by
      rcases h1 with rfl | rfl <;> refine ⟨?_, by decide, by decide⟩ <;> rw [idStart_ascii (by decide)] <;> decide
    have h4 : (decide (c = '"') || decide (c = '\'')) = true := by simpa using h1
    simp only [List.cons_append, token, h3.1, h3.2.1, h3.2.2, h4, Bool.false_eq_true, if_false, if_true]
    rw [stringEnd_append c .none r rest h2]
    rfl
  | @regex r h1 h2 =>
    have h3 : idStart U '/' = false := by rw [idStart_ascii (by decide)]; decide
    have h4 : Char.isDigit '/' = false := by decide
    simp only [List.cons_append, token, h3, h4, h1, Bool.false_eq_true, if_false]
    simp
    exact regexEnd_append U false false r rest h2 hf
  | punct h1 => exact token_punct U m cs rest h1 hm hf.1 hf.2

/-! ## Comments and whitespace -/

/-- The text starts with a token and not with whitespace or a comment. -/
def NoSkip (start : Bool) (ts : Text) : Prop :=
  headIs (fun c => isLineTerminator c || isWhitespace c) ts = false ∧
  ['/', '*'].isPrefixOf ts = false ∧ ['/', '/'].isPrefixOf ts = false ∧
  ['<', '!', '-', '-'].isPrefixOf ts = false ∧ (start = true → ['-', '-', '>'].isPrefixOf ts = false)

theorem skip_stay (n : Nat) (start nl : Bool) (ts : Text) (h : NoSkip start ts) :
    skip n start nl ts = (nl, ts) := by
  cases n with
  | zero => rfl
  | succ n =>
    obtain ⟨h1, h2, h3, h4, h5⟩ := h
    have h6 : ['\r', '\n'].isPrefixOf ts = false := by
      cases ts with
      | nil => rfl
      | cons c r =>
        by_cases hc : c = '\r'
        · subst hc; simp [headIs, isLineTerminator] at h1
        · simp [List.isPrefixOf]; intro hh; exact absurd hh.symm hc
    have h7 : headIs isLineTerminator ts = false ∧ headIs isWhitespace ts = false := by
      cases ts with
      | nil => exact ⟨rfl, rfl⟩
      | cons c r => simpa [headIs] using h1
    rw [skip]
    rw [if_neg (by rw [h6]; decide), if_neg (by rw [h2]; decide), if_neg (by rw [h3]; decide),
      if_neg (by rw [h4]; decide)]
    split
    · rename_i hp
      split
      · rename_i hst; rw [h5 hst] at hp; exact absurd hp (by decide)
      · rfl
    · rw [if_neg (by rw [h7.1]; decide), if_neg (by rw [h7.2]; decide)]

theorem lineEnd_length (ts : Text) : (lineEnd ts).2.length ≤ ts.length := by
  fun_induction lineEnd ts <;> simp_all <;> omega

theorem commentEnd_length (nl : Bool) (ts : Text) : (commentEnd nl ts).2.length ≤ ts.length := by
  fun_induction commentEnd nl ts <;> simp_all <;> omega

theorem skip_length (n : Nat) (start nl : Bool) (ts : Text) : (skip n start nl ts).2.length ≤ ts.length := by
  induction n generalizing start nl ts with
  | zero => simp [skip]
  | succ n ih =>
    rw [skip]
    have hl := lineEnd_length
    have hc := commentEnd_length
    have hd : ∀ k, (ts.drop k).length ≤ ts.length := by intro k; simp
    split
    · exact Nat.le_trans (ih _ _ _) (hd 2)
    split
    · exact Nat.le_trans (ih _ _ _) (Nat.le_trans (hc _ _) (hd 2))
    split
    · exact Nat.le_trans (ih _ _ _) (Nat.le_trans (hl _) (hd 2))
    split
    · exact Nat.le_trans (ih _ _ _) (Nat.le_trans (hl _) (hd 4))
    split
    · split
      · exact Nat.le_trans (ih _ _ _) (Nat.le_trans (hl _) (hd 3))
      · exact Nat.le_refl _
    split
    · exact Nat.le_trans (ih _ _ _) (hd 1)
    split
    · exact Nat.le_trans (ih _ _ _) (hd 1)
    · exact Nat.le_refl _

theorem noSkip_of_skip (n : Nat) (nl nl' : Bool) (ts : Text) (hn : ts ≠ [])
    (h : skip (n + 1) true nl ts = (nl', ts)) : NoSkip true ts := by
  have hl := lineEnd_length
  have hc := commentEnd_length
  have hsk : ∀ (st b : Bool) (x : Text), x.length < ts.length → (skip n st b x).2 ≠ ts := by
    intro st b x hx he
    have := skip_length n st b x
    rw [he] at this
    omega
  have hpos : 0 < ts.length := List.length_pos_iff.mpr hn
  have hdrop : ∀ k, 0 < k → (ts.drop k).length < ts.length := by
    intro k hk; simp; omega
  rw [skip] at h
  split at h
  · exact absurd (congrArg Prod.snd h) (hsk _ _ _ (hdrop 2 (by omega)))
  split at h
  · exact absurd (congrArg Prod.snd h) (hsk _ _ _ (Nat.lt_of_le_of_lt (hc _ _) (hdrop 2 (by omega))))
  split at h
  · exact absurd (congrArg Prod.snd h) (hsk _ _ _ (Nat.lt_of_le_of_lt (hl _) (hdrop 2 (by omega))))
  split at h
  · exact absurd (congrArg Prod.snd h) (hsk _ _ _ (Nat.lt_of_le_of_lt (hl _) (hdrop 4 (by omega))))
  split at h
  · rw [if_pos rfl] at h
    exact absurd (congrArg Prod.snd h) (hsk _ _ _ (Nat.lt_of_le_of_lt (hl _) (hdrop 3 (by omega))))
  split at h
  · exact absurd (congrArg Prod.snd h) (hsk _ _ _ (hdrop 1 (by omega)))
  split at h
  · exact absurd (congrArg Prod.snd h) (hsk _ _ _ (hdrop 1 (by omega)))
  · simp only [Bool.not_eq_true] at *
    refine ⟨?_, by assumption, by assumption, by assumption, fun _ => by assumption⟩
    cases ts with
    | nil => rfl
    | cons c r => simp_all [headIs]

/-- A token that stands alone is read by the lexer, and nothing is skipped. -/
theorem alone_inv {U : Unicode} {m : Mode} {k : Kind} {cs : Text} (h : Alone U m k cs) :
    cs ≠ [] ∧ token U m cs = some (k, []) ∧ NoSkip true cs := by
  simp only [Alone, lex, lexFrom] at h
  generalize hsk : skip cs.length true false cs = s at h
  obtain ⟨nl, ts⟩ := s
  simp only at h
  have hlen := skip_length cs.length true false cs
  rw [hsk] at hlen
  simp only at hlen
  cases ht : token U m ts with
  | none => rw [ht] at h; simp at h
  | some p =>
    obtain ⟨k', r⟩ := p
    rw [ht] at h
    simp only at h
    split at h
    · simp only [Option.map_some, Option.some.injEq, List.cons.injEq, Lexed.mk.injEq, and_true] at h
      obtain ⟨rfl, h2, rfl⟩ := h
      have h3 := congrArg List.length h2
      rw [List.length_take] at h3
      have hn : ts ≠ [] := by rintro rfl; simp [token] at ht
      have h4 : 0 < ts.length := List.length_pos_iff.mpr hn
      have hr : r = [] := List.length_eq_zero_iff.mp (by omega)
      subst hr
      have : ts = cs := by simpa using h2
      subst this
      refine ⟨hn, ht, ?_⟩
      cases hts : ts.length with
      | zero => omega
      | succ n =>
        rw [hts] at hsk
        exact noSkip_of_skip n _ _ ts hn hsk
    · simp at h

/-- What may stand behind a token: together they start no comment. -/
def NoComment (start : Bool) (cs rest : Text) : Prop :=
  (cs = ['/'] → headIs (fun c => c = '/' || c = '*') rest = false) ∧
  (cs = ['<'] → ['!', '-', '-'].isPrefixOf rest = false) ∧
  (cs = ['-'] → headIs (· = '-') rest = false) ∧
  (cs = ['-', '-'] → start = true → headIs (· = '>') rest = false)

theorem prefix_append_cases {a cs rest : Text} (h : a.isPrefixOf (cs ++ rest) = true) :
    a.isPrefixOf cs = true ∨ ∃ t, a = cs ++ t ∧ t ≠ [] ∧ t.isPrefixOf rest = true := by
  obtain ⟨t, ht⟩ := prefix_iff.mp h
  rcases List.append_eq_append_iff.mp ht with ⟨u, hu, hv⟩ | ⟨u, hu, hv⟩
  · cases u with
    | nil => left; exact prefix_iff.mpr ⟨[], by rw [hu]; simp⟩
    | cons c u => right; exact ⟨c :: u, hu, by simp, prefix_iff.mpr ⟨t, hv⟩⟩
  · left; exact prefix_iff.mpr ⟨u, hu⟩

theorem noSkip_append {U : Unicode} {m : Mode} {k : Kind} {cs rest : Text} {start : Bool} (hn : cs ≠ [])
    (ht : token U m cs = some (k, [])) (hs : NoSkip true cs) (hc : NoComment start cs rest) :
    NoSkip start (cs ++ rest) := by
  obtain ⟨h1, h2, h3, h4, h5⟩ := hs
  have h5 := h5 rfl
  obtain ⟨c1, c2, c3, c4⟩ := hc
  have one : ∀ (c d : Char) (t : Text), [c, d] = cs ++ t → t ≠ [] → cs = [c] ∧ t = [d] := by
    intro c d t he htn
    cases cs with
    | nil => exact absurd rfl hn
    | cons x xs =>
      simp only [List.cons_append, List.cons.injEq] at he
      obtain ⟨rfl, he⟩ := he
      cases xs with
      | nil => exact ⟨rfl, by simpa using he.symm⟩
      | cons y ys =>
        simp only [List.cons_append, List.cons.injEq] at he
        have := List.append_eq_nil_iff.mp he.2.symm
        exact absurd this.2 htn
  refine ⟨by rw [headIs_append _ _ _ (.inl hn)]; exact h1, ?_, ?_, ?_, ?_⟩
  · rw [← Bool.not_eq_true]
    intro h
    rcases prefix_append_cases h with h | ⟨t, he, htn, hp⟩
    · rw [h2] at h; exact Bool.false_ne_true h
    · obtain ⟨hcs, rfl⟩ := one _ _ _ he htn
      have := c1 hcs
      cases rest with
      | nil => simp [List.isPrefixOf] at hp
      | cons c r => simp [List.isPrefixOf] at hp; subst hp; simp [headIs] at this
  · rw [← Bool.not_eq_true]
    intro h
    rcases prefix_append_cases h with h | ⟨t, he, htn, hp⟩
    · rw [h3] at h; exact Bool.false_ne_true h
    · obtain ⟨hcs, rfl⟩ := one _ _ _ he htn
      have := c1 hcs
      cases rest with
      | nil => simp [List.isPrefixOf] at hp
      | cons c r => simp [List.isPrefixOf] at hp; subst hp; simp [headIs] at this
  · rw [← Bool.not_eq_true]
    intro h
    rcases prefix_append_cases h with h | ⟨t, he, htn, hp⟩
    · rw [h4] at h; exact Bool.false_ne_true h
    · have hlt : idStart U '<' = false := by rw [idStart_ascii (by decide)]; decide
      rcases cs with _ | ⟨a, _ | ⟨b, _ | ⟨c, _ | ⟨d, cs⟩⟩⟩⟩
      · exact hn rfl
      · simp only [List.cons_append, List.nil_append, List.cons.injEq] at he
        obtain ⟨rfl, rfl⟩ := he
        rw [c2 rfl] at hp; exact Bool.false_ne_true hp
      · simp only [List.cons_append, List.nil_append, List.cons.injEq] at he
        obtain ⟨rfl, rfl, rfl⟩ := he
        cases shape_of ht with
        | word _ h _ => simp [hlt] at h
        | digits h _ => revert h; decide
        | string h _ => revert h; decide
        | punct h => revert h; decide
      · simp only [List.cons_append, List.nil_append, List.cons.injEq] at he
        obtain ⟨rfl, rfl, rfl, rfl⟩ := he
        cases shape_of ht with
        | word _ h _ => simp [hlt] at h
        | digits h _ => revert h; decide
        | string h _ => revert h; decide
        | punct h => revert h; decide
      · simp only [List.cons_append, List.cons.injEq] at he
        have := List.append_eq_nil_iff.mp he.2.2.2.2.symm
        exact htn this.2
  · intro hst
    rw [← Bool.not_eq_true]
    intro h
    rcases prefix_append_cases h with h | ⟨t, he, htn, hp⟩
    · rw [h5] at h; exact Bool.false_ne_true h
    · rcases cs with _ | ⟨a, _ | ⟨b, _ | ⟨c, cs⟩⟩⟩
      · exact hn rfl
      · simp only [List.cons_append, List.nil_append, List.cons.injEq] at he
        obtain ⟨rfl, rfl⟩ := he
        have := c3 rfl
        cases rest with
        | nil => simp [List.isPrefixOf] at hp
        | cons c r => simp [List.isPrefixOf] at hp; rw [← hp.1] at this; simp [headIs] at this
      · simp only [List.cons_append, List.nil_append, List.cons.injEq] at he
        obtain ⟨rfl, rfl, rfl⟩ := he
        have := c4 rfl hst
        cases rest with
        | nil => simp [List.isPrefixOf] at hp
        | cons c r => simp [List.isPrefixOf] at hp; subst hp; simp [headIs] at this
      · simp only [List.cons_append, List.cons.injEq] at he
        have := List.append_eq_nil_iff.mp he.2.2.2.symm
        exact htn this.2

end Verif.Lex
