import Verif.Numeric.Spec
import Mathlib.Tactic.Ring
import Mathlib.Tactic.FieldSimp
import Mathlib.Tactic.Push
import Mathlib.Data.List.Induction

/-!
# Numeric literals: lemmas about digits and decimal numbers
-/

namespace Verif.Numeric

/-! ## Classes of digits -/

theorem isDec_us : isDec '_' = false := by decide
theorem isBin_us : isBin '_' = false := by decide
theorem isOct_us : isOct '_' = false := by decide
theorem isHex_us : isHex '_' = false := by decide

theorem isOct_isDec {c : Char} (h : isOct c = true) : isDec c = true := by
  simp only [isOct, isDec, Bool.and_eq_true, decide_eq_true_eq] at *
  exact ⟨h.1, Char.le_trans h.2 (by decide)⟩

theorem isBin_isDec {c : Char} (h : isBin c = true) : isDec c = true := by
  simp only [isBin, Bool.or_eq_true, beq_iff_eq] at h
  rcases h with rfl | rfl <;> decide

theorem isDec_ne {c x : Char} (h : isDec c = true) (hx : isDec x = false) : c ≠ x := by
  rintro rfl
  rw [h] at hx
  cases hx

/-! ## Scanning digits -/

/-- What may follow digits that are read to their end. -/
def Stops (d : Char → Bool) (r : List Char) : Prop := ∀ c, r.head? = some c → d c = false ∧ c ≠ '_'

theorem scanFrom_digits {d : Char → Bool} (hd : d '_' = false) {s : List Char} (h : Digits d s)
    (v : Bool) (rest : List Char) : ∀ cons,
      scanFrom d cons false v (s ++ rest) =
        { scanFrom d true false v rest with text := s ++ (scanFrom d true false v rest).text } := by
  have ne : ∀ {c}, d c = true → (c == '_') = false := by
    intro c hc
    simp only [beq_eq_false_iff_ne, ne_eq]
    rintro rfl
    rw [hd] at hc
    cases hc
  induction h generalizing rest with
  | one hc => intro cons; simp [scanFrom, ne hc, hc]
  | more _ hc ih =>
    intro cons
    rw [List.append_assoc, ih]
    simp [scanFrom, ne hc, hc]
  | sep _ hc ih =>
    intro cons
    rw [List.append_assoc, ih]
    simp [scanFrom, ne hc, hc]

theorem scanFrom_stop {d : Char → Bool} {rest : List Char} (h : Stops d rest) (v : Bool)
    (cons : Bool) : scanFrom d cons false v rest = ⟨cons, v, [], rest⟩ := by
  cases rest with
  | nil => simp [scanFrom]
  | cons c cs =>
    obtain ⟨h1, h2⟩ := h c rfl
    simp [scanFrom, h1, h2]

theorem scan_digits {d : Char → Bool} (hd : d '_' = false) {s rest : List Char} (h : Digits d s)
    (hr : Stops d rest) : scan d (s ++ rest) = ⟨true, true, s, rest⟩ := by
  rw [scan, scanFrom_digits hd h, scanFrom_stop hr]
  simp

theorem scan_stop {d : Char → Bool} {rest : List Char} (hr : Stops d rest) :
    scan d rest = ⟨false, true, [], rest⟩ := scanFrom_stop hr true false

theorem scanFrom_text (d : Char → Bool) : ∀ s c p v,
    (scanFrom d c p v s).text ++ (scanFrom d c p v s).rest = s
  | [], c, p, v => rfl
  | a :: s, c, p, v => by
    rw [scanFrom]
    split
    · simp [scanFrom_text d s]
    · split
      · simp [scanFrom_text d s]
      · rfl

theorem scan_text (d : Char → Bool) (s : List Char) : (scan d s).text ++ (scan d s).rest = s :=
  scanFrom_text d s _ _ _

theorem scanFrom_stops (d : Char → Bool) : ∀ s c p v, Stops d (scanFrom d c p v s).rest
  | [], c, p, v => by intro x hx; simp [scanFrom] at hx
  | a :: s, c, p, v => by
    rw [scanFrom]
    split
    · exact scanFrom_stops d s _ _ _
    · rename_i hne
      split
      · exact scanFrom_stops d s _ _ _
      · rename_i hd
        intro x hx
        simp only [List.head?_cons, Option.some.injEq] at hx
        subst hx
        exact ⟨by simpa using hd, by simpa using hne⟩

theorem scan_stops (d : Char → Bool) (s : List Char) : Stops d (scan d s).rest :=
  scanFrom_stops d s _ _ _

/-- What is known of the text before the place a scan is at. -/
def ScanInv (d : Char → Bool) (pre : List Char) (c p : Bool) : Prop :=
  match c, p with
  | false, false => pre = []
  | true, false => Digits d pre
  | true, true => ∃ q, pre = q ++ ['_'] ∧ Digits d q
  | false, true => False

theorem scanFrom_valid (d : Char → Bool) : ∀ s c p v, (scanFrom d c p v s).ok = true → v = true
  | [], c, p, v, h => by simp [scanFrom] at h; exact h.1
  | a :: s, c, p, v, h => by
    rw [scanFrom] at h
    split at h
    · have := scanFrom_valid d s _ _ _ h
      simp at this
      exact this.1
    · split at h
      · exact scanFrom_valid d s _ _ _ h
      · simp at h; exact h.1

theorem scanFrom_sound (d : Char → Bool) : ∀ s c p v pre, ScanInv d pre c p →
    (scanFrom d c p v s).ok = true →
      (scanFrom d c p v s).digits = true ∧ Digits d (pre ++ (scanFrom d c p v s).text) ∨
      (scanFrom d c p v s).digits = false ∧ pre ++ (scanFrom d c p v s).text = []
  | [], c, p, v, pre, hi, h => by
    simp only [scanFrom, Bool.and_eq_true, Bool.not_eq_true', List.append_nil] at h ⊢
    obtain ⟨_, rfl⟩ := h
    cases c
    · exact .inr ⟨rfl, hi⟩
    · exact .inl ⟨rfl, hi⟩
  | a :: s, c, p, v, pre, hi, h => by
    rw [scanFrom] at h ⊢
    split
    · rename_i hu
      rw [if_pos hu] at h
      have hv := scanFrom_valid d s _ _ _ h
      simp only [Bool.and_eq_true, Bool.not_eq_true', Bool.or_eq_false_iff,
        Bool.not_eq_false'] at hv
      obtain ⟨_, ⟨rfl, rfl⟩, _⟩ := hv
      have ha : a = '_' := by simpa using hu
      subst ha
      have := scanFrom_sound d s true true _ (pre ++ ['_']) ⟨pre, rfl, hi⟩ h
      simpa using this
    · rename_i hu
      rw [if_neg hu] at h
      split
      · rename_i hd
        rw [if_pos hd] at h
        have hnext : ScanInv d (pre ++ [a]) true false := by
          show Digits d (pre ++ [a])
          cases c <;> cases p
          · rw [show pre = [] from hi]; exact .one hd
          · exact hi.elim
          · exact .more hi hd
          · obtain ⟨q, rfl, hq⟩ := hi
            rw [List.append_assoc]
            exact .sep hq hd
        have := scanFrom_sound d s true false v (pre ++ [a]) hnext h
        simpa using this
      · rename_i hd
        rw [if_neg hd] at h
        simp only [Bool.and_eq_true, Bool.not_eq_true', List.append_nil] at h ⊢
        obtain ⟨_, rfl⟩ := h
        cases c
        · exact .inr ⟨rfl, hi⟩
        · exact .inl ⟨rfl, hi⟩

theorem scan_sound {d : Char → Bool} {s : List Char} (h : (scan d s).ok = true) :
    (scan d s).digits = true ∧ Digits d (scan d s).text ∨
    (scan d s).digits = false ∧ (scan d s).text = [] :=
  scanFrom_sound d s false false true [] rfl h

/-! ## Digits without separators -/

theorem bare_append (s t : List Char) : bare (s ++ t) = bare s ++ bare t := List.filter_append ..

theorem strip_eq (s : List Char) : strip s = bare s := by
  unfold strip bare
  congr 1
  funext c
  by_cases h : c = '_' <;> simp [h]

theorem bare_cons {c : Char} (h : c ≠ '_') (s : List Char) : bare (c :: s) = c :: bare s := by
  simp [bare, h]

theorem Digits.chars {d : Char → Bool} {s : List Char} (h : Digits d s) :
    ∀ c ∈ s, d c = true ∨ c = '_' := by
  induction h with
  | one hc => simpa using Or.inl hc
  | more _ hc ih =>
    intro c hm
    rcases List.mem_append.1 hm with hm | hm
    · exact ih c hm
    · rw [List.mem_singleton.1 hm]; exact .inl hc
  | sep _ hc ih =>
    intro c hm
    rcases List.mem_append.1 hm with hm | hm
    · exact ih c hm
    · simp only [List.mem_cons, List.not_mem_nil, or_false] at hm
      rcases hm with rfl | rfl
      · exact .inr rfl
      · exact .inl hc

theorem Digits.bare_all {d : Char → Bool} {s : List Char} (h : Digits d s) :
    ∀ c ∈ bare s, d c = true := by
  intro c hc
  simp only [bare, ne_eq, decide_not, List.mem_filter, Bool.not_eq_true', decide_eq_false_iff_not]
    at hc
  exact (h.chars c hc.1).resolve_right hc.2

/-- Digits start with a digit. -/
theorem Digits.head {d : Char → Bool} {s : List Char} (h : Digits d s) :
    ∃ c t, s = c :: t ∧ d c = true := by
  induction h with
  | one hc => exact ⟨_, _, rfl, hc⟩
  | more _ _ ih => obtain ⟨c, t, rfl, hc⟩ := ih; exact ⟨c, _, rfl, hc⟩
  | sep _ _ ih => obtain ⟨c, t, rfl, hc⟩ := ih; exact ⟨c, _, rfl, hc⟩

theorem Digits.ne_nil {d : Char → Bool} {s : List Char} (h : Digits d s) : s ≠ [] := by
  obtain ⟨c, t, rfl, _⟩ := h.head
  simp

theorem Digits.bare_head {d : Char → Bool} (hd : d '_' = false) {s : List Char}
    (h : Digits d s) : ∃ c t, bare s = c :: bare t ∧ s = c :: t ∧ d c = true := by
  obtain ⟨c, t, rfl, hc⟩ := h.head
  refine ⟨c, t, bare_cons ?_ t, rfl, hc⟩
  rintro rfl
  rw [hd] at hc
  cases hc

theorem Digits.bare_ne_nil {d : Char → Bool} (hd : d '_' = false) {s : List Char}
    (h : Digits d s) : bare s ≠ [] := by
  obtain ⟨c, t, hb, _⟩ := h.bare_head hd
  simp [hb]

theorem bare_of_no_us {s : List Char} (h : ∀ c ∈ s, c ≠ '_') : bare s = s := by
  rw [bare, List.filter_eq_self]
  simpa using h

theorem Digits.of_all {d : Char → Bool} : ∀ {s : List Char}, s ≠ [] → (∀ c ∈ s, d c = true) →
    Digits d s := by
  intro s
  induction s using List.reverseRecOn with
  | nil => intro h; exact absurd rfl h
  | append_singleton s c ih =>
    intro _ h
    by_cases hs : s = []
    · subst hs; exact .one (h c (by simp))
    · exact .more (ih hs fun x hx => h x (by simp [hx])) (h c (by simp))

/-! ## Values -/

theorem natOf_eq (radix : Nat) (s : List Char) : natOf radix s = mvRev radix s.reverse := by
  induction s using List.reverseRecOn with
  | nil => rfl
  | append_singleton s c ih =>
    rw [natOf, List.foldl_append, ← natOf, ih]
    simp only [List.foldl_cons, List.foldl_nil, List.reverse_append, List.reverse_cons,
      List.reverse_nil, List.nil_append, List.singleton_append, mvRev]
    ring

theorem natOf_bare (radix : Nat) (s : List Char) : natOf radix (bare s) = mv radix s :=
  natOf_eq radix _

theorem natOf_append_aux (radix : Nat) (t : List Char) : ∀ a,
    t.foldl (fun a c => a * radix + digitOf c) a = a * radix ^ t.length + natOf radix t := by
  induction t with
  | nil => intro a; simp [natOf]
  | cons c t ih =>
    intro a
    have : natOf radix (c :: t) = digitOf c * radix ^ t.length + natOf radix t := by
      rw [← ih]; simp [natOf]
    rw [List.foldl_cons, ih, this, List.length_cons, pow_succ]
    ring

theorem natOf_append (radix : Nat) (s t : List Char) :
    natOf radix (s ++ t) = natOf radix s * radix ^ t.length + natOf radix t := by
  rw [natOf, List.foldl_append, natOf_append_aux]
  rfl

theorem digitOf_char {n : Nat} (h : n < 10) :
    isDec (Char.ofNat (48 + n)) = true ∧ digitOf (Char.ofNat (48 + n)) = n := by
  have : ∀ n : Fin 10, isDec (Char.ofNat (48 + n)) = true ∧ digitOf (Char.ofNat (48 + n)) = n := by
    decide
  exact this ⟨n, h⟩

theorem decTextFrom_spec : ∀ f n, n < f →
    (∀ c ∈ decTextFrom f n, isDec c = true) ∧ natOf 10 (decTextFrom f n) = n ∧
      decTextFrom f n ≠ [] ∧ (10 ≤ n → (decTextFrom f n).head? ≠ some '0') ∧
      (0 < n → (decTextFrom f n).head? ≠ some '0')
  | 0, n, h => by omega
  | f + 1, n, h => by
    rw [decTextFrom]
    split
    · rename_i hn
      obtain ⟨h1, h2⟩ := digitOf_char hn
      refine ⟨by simpa using h1, by simp [natOf, h2], by simp, by omega, fun hp => ?_⟩
      intro hc
      have hc : Char.ofNat (48 + n) = '0' := by simpa using hc
      rw [hc] at h2
      have : digitOf '0' = 0 := by decide
      omega
    · rename_i hn
      obtain ⟨h1, h2, h3, _, h5⟩ := decTextFrom_spec f (n / 10) (by omega)
      obtain ⟨g1, g2⟩ := digitOf_char (Nat.mod_lt n (show 0 < 10 by omega))
      have hh : (decTextFrom f (n / 10) ++ [Char.ofNat (48 + n % 10)]).head? ≠ some '0' := by
        rw [List.head?_append_of_ne_nil _ h3]
        exact h5 (by omega)
      refine ⟨?_, ?_, by simp, fun _ => hh, fun _ => hh⟩
      · intro c hc
        rcases List.mem_append.1 hc with hc | hc
        · exact h1 c hc
        · rw [List.mem_singleton.1 hc]; exact g1
      · rw [natOf_append, h2]
        simp only [List.length_cons, List.length_nil, natOf, List.foldl_cons, List.foldl_nil, g2]
        omega

theorem decTextFrom_length_one : ∀ f n, n < 10 → n < f → (decTextFrom f n).length = 1
  | 0, n, _, h => by omega
  | f + 1, n, h, _ => by rw [decTextFrom, if_pos h]; rfl

theorem decText_decimal (n : Nat) : Decimal (decText n) n := by
  obtain ⟨h1, h2, h3, h4, _⟩ := decTextFrom_spec (n + 1) n (by omega)
  refine ⟨h3, h1, ?_, ?_⟩
  · intro hl
    by_cases hn : n < 10
    · have := decTextFrom_length_one (n + 1) n hn (by omega)
      rw [decText] at hl
      omega
    · exact h4 (by omega)
  · rw [← natOf_bare, bare_of_no_us]
    · exact h2
    · intro c hc
      exact isDec_ne (h1 c hc) isDec_us

/-! ## `fast_float` -/

theorem takeWhile_append {p : Char → Bool} {s t : List Char} (hs : ∀ c ∈ s, p c = true)
    (ht : ∀ c, t.head? = some c → p c = false) :
    (s ++ t).takeWhile p = s ∧ (s ++ t).dropWhile p = t := by
  induction s with
  | nil =>
    cases t with
    | nil => exact ⟨rfl, rfl⟩
    | cons c t => simp [List.takeWhile, List.dropWhile, ht c rfl]
  | cons a s ih =>
    have ha := hs a (by simp)
    obtain ⟨h1, h2⟩ := ih fun c hc => hs c (by simp [hc])
    simp [ha, h1, h2]

/-- An exponent without separators. -/
inductive BareExp : List Char → ℤ → Prop where
  | none : BareExp [] 0
  | unsigned {m s} : (m = 'e' ∨ m = 'E') → s ≠ [] → (∀ c ∈ s, isDec c = true) →
      BareExp (m :: s) (natOf 10 s)
  | plus {m s} : (m = 'e' ∨ m = 'E') → s ≠ [] → (∀ c ∈ s, isDec c = true) →
      BareExp (m :: '+' :: s) (natOf 10 s)
  | minus {m s} : (m = 'e' ∨ m = 'E') → s ≠ [] → (∀ c ∈ s, isDec c = true) →
      BareExp (m :: '-' :: s) (-(natOf 10 s : ℤ))

theorem parseExponent_bare {m : ℚ} {s : List Char} {x : ℤ} (h : BareExp s x) :
    parseExponent m s = some (m * 10 ^ x) := by
  have key : ∀ ds : List Char, ds ≠ [] → (∀ c ∈ ds, isDec c = true) →
      (ds.isEmpty || !ds.all isDec) = false := by
    intro ds h1 h2
    simp [h1, List.all_eq_true.2 h2]
  cases h with
  | none => simp [parseExponent]
  | @unsigned a s hm h1 h2 =>
    have hm' : (a == 'e' || a == 'E') = true := by rcases hm with rfl | rfl <;> rfl
    have hk := key s h1 h2
    obtain ⟨c, t, rfl⟩ := List.exists_cons_of_ne_nil h1
    have hc := h2 c (by simp)
    have n1 : c ≠ '-' := isDec_ne hc (by decide)
    have n2 : c ≠ '+' := isDec_ne hc (by decide)
    simp only [parseExponent, hm', if_true]
    split
    · rename_i heq; exact absurd (List.cons.inj heq).1 n1
    · rename_i heq; exact absurd (List.cons.inj heq).1 n2
    · simp only [hk, Bool.false_eq_true, if_false, zpow_natCast]
  | @plus a s hm h1 h2 =>
    have hm' : (a == 'e' || a == 'E') = true := by rcases hm with rfl | rfl <;> rfl
    simp [parseExponent, hm', key s h1 h2, zpow_natCast]
  | @minus a s hm h1 h2 =>
    have hm' : (a == 'e' || a == 'E') = true := by rcases hm with rfl | rfl <;> rfl
    simp [parseExponent, hm', key s h1 h2, zpow_natCast, zpow_neg, div_eq_mul_inv]

theorem BareExp.head {s : List Char} {x : ℤ} (h : BareExp s x) :
    ∀ c, s.head? = some c → c = 'e' ∨ c = 'E' := by
  cases h <;> simp_all

/-- A decimal number with a point. -/
theorem parseDecimal_point {i f e : List Char} {x : ℤ} (hi : ∀ c ∈ i, isDec c = true)
    (hf : ∀ c ∈ f, isDec c = true) (hne : i ≠ [] ∨ f ≠ []) (he : BareExp e x) :
    parseDecimal (i ++ '.' :: (f ++ e)) =
      some ((natOf 10 i + (natOf 10 f : ℚ) / 10 ^ f.length) * 10 ^ x) := by
  have he' : ∀ c, e.head? = some c → isDec c = false := by
    intro c hc
    rcases he.head c hc with rfl | rfl <;> decide
  obtain ⟨a1, a2⟩ := takeWhile_append (t := '.' :: (f ++ e)) hi (by
    intro c hc; obtain rfl : '.' = c := by simpa using hc
    decide)
  obtain ⟨b1, b2⟩ := takeWhile_append hf he'
  have hemp : (i.isEmpty && f.isEmpty) = false := by
    rcases hne with h | h <;> simp [h]
  have : parseDecimal (i ++ '.' :: (f ++ e)) =
      parseExponent ((natOf 10 (i ++ f) : ℚ) / 10 ^ f.length) e := by
    unfold parseDecimal
    simp only [a1, a2, fracOf, afterFrac, b1, b2, hemp, Bool.false_eq_true, if_false]
  rw [this, parseExponent_bare he, natOf_append]
  congr 2
  push_cast
  field_simp

/-- A decimal number without a point. -/
theorem parseDecimal_int {i e : List Char} {x : ℤ} (hi : ∀ c ∈ i, isDec c = true)
    (hne : i ≠ []) (he : BareExp e x) :
    parseDecimal (i ++ e) = some ((natOf 10 i : ℚ) * 10 ^ x) := by
  have he' : ∀ c, e.head? = some c → isDec c = false := by
    intro c hc
    rcases he.head c hc with rfl | rfl <;> decide
  obtain ⟨a1, a2⟩ := takeWhile_append hi he'
  have nf : ∀ t, e ≠ '.' :: t := by
    rintro t rfl
    rcases he.head '.' rfl with h | h <;> exact absurd h (by decide)
  have hemp : i.isEmpty = false := by simp [hne]
  have : parseDecimal (i ++ e) = parseExponent ((natOf 10 (i ++ []) : ℚ) / 10 ^ ([] : List Char).length) e := by
    have f1 : fracOf e = [] := by
      unfold fracOf
      split
      · exact absurd rfl (nf _)
      · rfl
    have f2 : afterFrac e = e := by
      unfold afterFrac
      split
      · exact absurd rfl (nf _)
      · rfl
    unfold parseDecimal
    simp only [a1, a2, f1, f2, hemp, Bool.false_and, Bool.false_eq_true, if_false]
  rw [this, parseExponent_bare he]
  simp

theorem parseDecimal_decText (n : Nat) : parseDecimal (decText n) = some (n : ℚ) := by
  obtain ⟨h1, h2, _, h4⟩ := decText_decimal n
  have := parseDecimal_int (x := 0) h2 h1 .none
  rw [List.append_nil] at this
  have hn : natOf 10 (decText n) = n := by
    conv => rhs; rw [← h4]
    rw [← natOf_bare, bare_of_no_us]
    intro c hc
    exact isDec_ne (h2 c hc) isDec_us
  rw [this, zpow_zero, mul_one, hn]

end Verif.Numeric
