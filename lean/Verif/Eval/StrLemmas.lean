import Verif.Eval.Spec
/-! Lemmas about the conversion of strings. -/

namespace Verif.Eval

/-! ## White space -/

theorem isSpace_iff (c : Nat) : isSpace c = true ↔ SpaceChar c := by
  simp [isSpace, whitespace, lineTerminators, SpaceChar]
  omega

theorem blank_all {s : List Nat} : Blank s ↔ s.all isSpace = true := by
  simp [Blank, isSpace_iff]

theorem dropWhile_blank {a l : List Nat} (ha : Blank a) (hl : ∀ c, l.head? = some c → isSpace c = false) :
    (a ++ l).dropWhile isSpace = l := by
  induction a with
  | nil =>
    cases l with
    | nil => rfl
    | cons c cs => simp [List.dropWhile_cons, hl c rfl]
  | cons c cs ih =>
    rw [List.cons_append, List.dropWhile_cons, if_pos ((isSpace_iff c).2 (ha c (by simp)))]
    exact ih fun x hx => ha x (List.mem_cons_of_mem _ hx)

theorem blank_reverse {s : List Nat} (h : Blank s) : Blank s.reverse := fun c hc => h c (by simpa using hc)

/-- A text without white space at its ends is what trimming leaves. -/
theorem trim_of {a l b : List Nat} (ha : Blank a) (hb : Blank b) (hne : l ≠ [])
    (h1 : ∀ c, l.head? = some c → isSpace c = false) (h2 : ∀ c, l.getLast? = some c → isSpace c = false) :
    trim (a ++ l ++ b) = l := by
  unfold trim
  rw [List.append_assoc, dropWhile_blank ha, List.reverse_append, dropWhile_blank (blank_reverse hb),
    List.reverse_reverse]
  · intro c hc
    rw [List.head?_reverse] at hc
    exact h2 c hc
  · intro c hc
    cases l with
    | nil => exact absurd rfl hne
    | cons x xs => exact h1 c hc

theorem dropWhile_split (p : Nat → Bool) (s : List Nat) :
    s = s.takeWhile p ++ s.dropWhile p ∧ (∀ c ∈ s.takeWhile p, p c = true) ∧
      ∀ c, (s.dropWhile p).head? = some c → p c = false := by
  refine ⟨List.takeWhile_append_dropWhile.symm, fun c hc => ?_, fun c hc => ?_⟩
  · have := List.all_takeWhile (p := p) (l := s)
    rw [List.all_eq_true] at this
    exact this c hc
  · have := List.head?_dropWhile_not p s
    rw [hc] at this
    simpa using this

theorem trim_split (s : List Nat) : ∃ a b, Blank a ∧ Blank b ∧ s = a ++ trim s ++ b := by
  obtain ⟨e1, b1, -⟩ := dropWhile_split isSpace s
  obtain ⟨e2, b2, -⟩ := dropWhile_split isSpace (s.dropWhile isSpace).reverse
  refine ⟨_, ((s.dropWhile isSpace).reverse.takeWhile isSpace).reverse,
    fun c hc => (isSpace_iff c).1 (b1 c hc), blank_reverse fun c hc => (isSpace_iff c).1 (b2 c hc), ?_⟩
  unfold trim
  rw [List.append_assoc, ← List.reverse_append, ← e2, List.reverse_reverse]
  exact e1

theorem trim_nil {s : List Nat} : trim s = [] ↔ Blank s := by
  constructor
  · intro h
    obtain ⟨a, b, ha, hb, e⟩ := trim_split s
    rw [h, List.append_nil] at e
    rw [e]
    intro c hc
    rcases List.mem_append.1 hc with h | h
    · exact ha c h
    · exact hb c h
  · intro h
    have : s.dropWhile isSpace = [] := by
      have := dropWhile_blank (l := []) h (by simp)
      rwa [List.append_nil] at this
    simp [trim, this]

/-! ## Digits -/

theorem digit_iff {radix c d : Nat} (hr : radix ≤ 16) : Digit radix c d ↔ toDigit radix c = some d := by
  constructor
  · intro h
    cases h with
    | dec h1 h2 h3 => simp [toDigit, h1, h2, h3]
    | lower h1 h2 h3 =>
      have : ¬ c ≤ 57 := by omega
      have h4 : c ≤ 122 := by omega
      simp [toDigit, h1, this, h4, h3]
    | upper h1 h2 h3 =>
      have a1 : ¬ c ≤ 57 := by omega
      have a2 : ¬ 97 ≤ c := by omega
      have a3 : c ≤ 90 := by omega
      simp [toDigit, h1, a1, a2, a3, h3]
  · intro h
    have key : ∀ e, (if e < radix then some e else none) = some d → e = d ∧ d < radix := by
      intro e he
      by_cases h1 : e < radix
      · rw [if_pos h1] at he
        cases he
        exact ⟨rfl, h1⟩
      · rw [if_neg h1] at he; cases he
    obtain ⟨h1, h2⟩ := key _ h
    by_cases c1 : 48 ≤ c ∧ c ≤ 57
    · rw [if_pos c1] at h1
      rw [← h1]; exact .dec c1.1 c1.2 (by omega)
    · rw [if_neg c1] at h1
      by_cases c2 : 97 ≤ c ∧ c ≤ 122
      · rw [if_pos c2] at h1
        rw [← h1]; exact .lower c2.1 (by omega) (by omega)
      · rw [if_neg c2] at h1
        by_cases c3 : 65 ≤ c ∧ c ≤ 90
        · rw [if_pos c3] at h1
          rw [← h1]; exact .upper c3.1 (by omega) (by omega)
        · rw [if_neg c3] at h1; omega

theorem parseDigits_snoc (radix : Nat) (cs : List Nat) (c : Nat) :
    parseDigits radix (cs ++ [c]) = parseDigits radix cs * radix + (toDigit radix c).getD 0 := by
  simp [parseDigits]

theorem digits_parse {radix : Nat} (hr : radix ≤ 16) {ds : List Nat} {n : Nat} (h : Digits radix ds n) :
    ds ≠ [] ∧ (∀ c ∈ ds, (toDigit radix c).isSome = true) ∧ n = parseDigits radix ds := by
  induction h with
  | one h =>
    have := (digit_iff hr).1 h
    refine ⟨by simp, by simp [this], ?_⟩
    simp [parseDigits, this]
  | more h1 h2 ih =>
    have := (digit_iff hr).1 h2
    refine ⟨by simp, ?_, ?_⟩
    · intro c hc
      rcases List.mem_append.1 hc with hc | hc
      · exact ih.2.1 c hc
      · simp only [List.mem_singleton] at hc
        subst hc; rw [this]; rfl
    · rw [parseDigits_snoc, this, ← ih.2.2]; rfl

theorem parse_digits {radix : Nat} (hr : radix ≤ 16) (ds : List Nat) (hne : ds ≠ [])
    (h : ∀ c ∈ ds, (toDigit radix c).isSome = true) : Digits radix ds (parseDigits radix ds) := by
  have key : ∀ n (ds : List Nat), ds.length = n → ds ≠ [] → (∀ c ∈ ds, (toDigit radix c).isSome = true) →
      Digits radix ds (parseDigits radix ds) := by
    intro n
    induction n with
    | zero => intro ds h1 h2; exact absurd (List.length_eq_zero_iff.1 h1) h2
    | succ n ih =>
      intro ds hl hne h
      obtain ⟨cs, c, rfl⟩ : ∃ cs c, ds = cs ++ [c] :=
        ⟨ds.dropLast, ds.getLast hne, (List.dropLast_concat_getLast hne).symm⟩
      obtain ⟨d, hd⟩ := Option.isSome_iff_exists.1 (h c (by simp))
      rw [parseDigits_snoc, hd]
      by_cases hcs : cs = []
      · subst hcs
        simp only [parseDigits, List.foldl_nil, Nat.zero_mul, Nat.zero_add, Option.getD_some, List.nil_append]
        exact .one ((digit_iff hr).2 hd)
      · exact .more (ih cs (by simpa using hl) hcs fun x hx => h x (by simp [hx])) ((digit_iff hr).2 hd)
  exact key _ ds rfl hne h

theorem parseIntDigits_iff {radix : Nat} (hr : radix ≤ 16) {ds : List Nat} {n : Nat} :
    parseIntDigits ds radix = some n ↔ Digits radix ds n := by
  constructor
  · intro h
    unfold parseIntDigits at h
    split at h
    · cases h
    · rename_i h1
      split at h
      · rename_i h2
        cases h
        exact parse_digits hr ds (fun e => h1 (Or.inl e)) (List.all_eq_true.1 h2)
      · cases h
  · intro h
    obtain ⟨h1, h2, h3⟩ := digits_parse hr h
    unfold parseIntDigits
    rw [if_neg, if_pos (List.all_eq_true.2 h2), h3]
    rintro (e | e)
    · exact h1 e
    · have h95 := h2 95 (by simpa using e)
      have : toDigit radix 95 = none := by
        simp [toDigit]
      rw [this] at h95; cases h95

theorem isDigit_iff (c : Nat) : isDigit c = true ↔ (toDigit 10 c).isSome = true := by
  constructor
  · intro h
    have h' : 48 ≤ c ∧ c ≤ 57 := by simpa [isDigit] using h
    rw [(digit_iff (by decide)).1 (Digit.dec (radix := 10) h'.1 h'.2 (by omega))]; rfl
  · intro h
    obtain ⟨d, hd⟩ := Option.isSome_iff_exists.1 h
    unfold isDigit
    rw [decide_eq_true_eq]
    cases (digit_iff (by decide)).2 hd <;> omega

theorem dec_digits {ds : List Nat} {n : Nat} :
    Digits 10 ds n ↔ ds ≠ [] ∧ (∀ c ∈ ds, isDigit c = true) ∧ n = parseDigits 10 ds := by
  constructor
  · intro h
    obtain ⟨h1, h2, h3⟩ := digits_parse (by decide) h
    exact ⟨h1, fun c hc => (isDigit_iff c).2 (h2 c hc), h3⟩
  · rintro ⟨h1, h2, h3⟩
    rw [h3]
    exact parse_digits (by decide) ds h1 fun c hc => (isDigit_iff c).1 (h2 c hc)

/-! ## Decimal numbers -/

theorem takeWhile_digits {ds r : List Nat} (h : ∀ c ∈ ds, isDigit c = true)
    (hr : ∀ c, r.head? = some c → isDigit c = false) :
    (ds ++ r).takeWhile isDigit = ds ∧ (ds ++ r).dropWhile isDigit = r := by
  induction ds with
  | nil =>
    cases r with
    | nil => simp
    | cons c cs => simp [hr c rfl]
  | cons c cs ih =>
    have := ih fun x hx => h x (List.mem_cons_of_mem _ hx)
    simp [h c (by simp), this]

/-- The value of an optional exponent text, with `some` on a match. -/
def parseExp (r : List Nat) : Option Int :=
  match r with
  | [] => some 0
  | c :: t =>
    if c = 101 ∨ c = 69 then
      if (stripSign t).2.2 ≠ [] ∧ (stripSign t).2.2.all isDigit then
        some (if (stripSign t).2.1 then -(parseDigits 10 (stripSign t).2.2 : Int) else parseDigits 10 (stripSign t).2.2)
      else none
    else none

theorem stripSign_of {s : List Nat} {neg : Bool} (h : Sign s neg) (body : List Nat)
    (hb : ∀ c, body.head? = some c → c ≠ 43 ∧ c ≠ 45) :
    stripSign (s ++ body) = (decide (s ≠ []), neg, body) := by
  cases h with
  | none =>
    cases body with
    | nil => rfl
    | cons c cs =>
      obtain ⟨h1, h2⟩ := hb c rfl
      show stripSign (c :: cs) = _
      unfold stripSign
      split
      · rename_i e; cases e; exact absurd rfl h1
      · rename_i e; cases e; exact absurd rfl h2
      · simp
  | plus => rfl
  | minus => rfl

theorem stripSign_split (t : List Nat) :
    ∃ s, Sign s (stripSign t).2.1 ∧ t = s ++ (stripSign t).2.2 ∧ ((stripSign t).1 = decide (s ≠ [])) := by
  unfold stripSign
  split
  · exact ⟨_, .plus, rfl, rfl⟩
  · exact ⟨_, .minus, rfl, rfl⟩
  · exact ⟨_, .none, rfl, rfl⟩

theorem digit_not_sign {c : Nat} (h : isDigit c = true) : c ≠ 43 ∧ c ≠ 45 ∧ c ≠ 46 ∧ c ≠ 101 ∧ c ≠ 69 := by
  simp [isDigit] at h; omega

theorem exponent_iff {r : List Nat} {e : Int} : Exponent r e ↔ parseExp r = some e := by
  constructor
  · intro h
    cases h with
    | none => rfl
    | @some c s ds neg n h1 h2 h3 =>
      obtain ⟨d1, d2, d3⟩ := dec_digits.1 h3
      have hs := stripSign_of h2 ds fun x hx => by
        have := digit_not_sign (d2 x (List.mem_of_head? hx)); exact ⟨this.1, this.2.1⟩
      show parseExp (c :: (s ++ ds)) = _
      simp only [parseExp]
      rw [if_pos h1, hs]
      rw [if_pos ⟨d1, List.all_eq_true.2 d2⟩, ← d3]
  · intro h
    cases r with
    | nil => simp [parseExp] at h; subst h; exact .none
    | cons c t =>
      simp only [parseExp] at h
      split at h
      · rename_i h1
        split at h
        · rename_i h2
          cases h
          obtain ⟨s, hs, et, -⟩ := stripSign_split t
          have hd := dec_digits.2 ⟨h2.1, List.all_eq_true.1 h2.2, rfl⟩
          have := Exponent.some h1 hs hd
          rw [List.cons_append, ← et] at this
          exact this
        · cases h
      · cases h

theorem exponent_head {r : List Nat} {e : Int} (h : Exponent r e) :
    ∀ c, r.head? = some c → isDigit c = false ∧ c ≠ 46 := by
  intro c hc
  cases h with
  | none => cases hc
  | some h1 =>
    simp only [List.cons_append, List.head?_cons, Option.some.injEq] at hc
    subst hc
    rcases h1 with rfl | rfl <;> decide

theorem expTail (m : Nat) (k : Int) (ex : List Nat) : (match ex with
      | [] => some (m, -k)
      | c :: t =>
        if c = 101 ∨ c = 69 then
          if (stripSign t).2.2 ≠ [] ∧ (stripSign t).2.2.all isDigit then
            some (m, (if (stripSign t).2.1 then -(parseDigits 10 (stripSign t).2.2 : Int) else
              parseDigits 10 (stripSign t).2.2) - k)
          else none
        else none) = (parseExp ex).map fun e => (m, e - k) := by
  cases ex with
  | nil => simp [parseExp]
  | cons c t =>
    simp only [parseExp]
    split
    · split <;> simp
    · simp

/-- `parseDecimal` with the exponent apart. -/
theorem parseDecimal_eq (ds fs ex : List Nat) (dot : Bool) (hds : ∀ c ∈ ds, isDigit c = true)
    (hfs : ∀ c ∈ fs, isDigit c = true) (hdot : dot = false → fs = [])
    (hex : ∀ c, ex.head? = some c → isDigit c = false ∧ c ≠ 46) (hne : ¬ (ds = [] ∧ fs = [])) :
    parseDecimal (ds ++ (if dot then 46 :: (fs ++ ex) else ex)) =
      (parseExp ex).map fun e => (parseDigits 10 (ds ++ fs), e - (fs.length : Int)) := by
  cases dot with
  | true =>
    simp only [if_true]
    have h1 := takeWhile_digits (r := 46 :: (fs ++ ex)) hds (by
      intro c hc; simp only [List.head?_cons, Option.some.injEq] at hc; subst hc; rfl)
    have h2 := takeWhile_digits (r := ex) hfs fun c hc => (hex c hc).1
    unfold parseDecimal
    simp only [h1.1, h1.2, h2.1, h2.2]
    rw [if_neg hne]
    exact expTail _ _ _
  | false =>
    have hf := hdot rfl
    subst hf
    simp only [Bool.false_eq_true, if_false]
    have h1 := takeWhile_digits (r := ex) hds fun c hc => (hex c hc).1
    unfold parseDecimal
    simp only [h1.1, h1.2]
    have h46 : ∀ t, ex = 46 :: t → False := fun t e => (hex 46 (by rw [e]; rfl)).2 rfl
    simp only
    rw [if_neg (by simpa using hne)]
    exact expTail _ _ _

theorem parseDigits_append (ds fs : List Nat) :
    parseDigits 10 (ds ++ fs) = parseDigits 10 ds * 10 ^ fs.length + parseDigits 10 fs := by
  have key : ∀ n (fs : List Nat), fs.length = n →
      parseDigits 10 (ds ++ fs) = parseDigits 10 ds * 10 ^ fs.length + parseDigits 10 fs := by
    intro n
    induction n with
    | zero =>
      intro fs h
      have := List.length_eq_zero_iff.1 h
      subst this
      simp [parseDigits]
    | succ n ih =>
      intro fs hl
      have hne : fs ≠ [] := by intro e; subst e; simp at hl
      obtain ⟨cs, c, rfl⟩ : ∃ cs c, fs = cs ++ [c] :=
        ⟨fs.dropLast, fs.getLast hne, (List.dropLast_concat_getLast hne).symm⟩
      rw [← List.append_assoc, parseDigits_snoc, parseDigits_snoc, ih cs (by simpa using hl)]
      simp only [List.length_append, List.length_singleton, Nat.pow_succ]
      rw [Nat.add_mul, Nat.mul_assoc, Nat.add_assoc]
  exact key _ fs rfl

theorem unsigned_parse {body : List Nat} {m : Nat} {e : Int} (h : Unsigned body m e) :
    parseDecimal body = some (m, e) := by
  cases h with
  | @int ds ex n e h1 h2 =>
    obtain ⟨d1, d2, d3⟩ := dec_digits.1 h1
    have := parseDecimal_eq ds [] ex false d2 (by simp) (fun _ => rfl) (exponent_head h2) (by simp [d1])
    simp only [Bool.false_eq_true, if_false, List.append_nil] at this
    rw [this, exponent_iff.1 h2, d3]; simp
  | @point ds ex n e h1 h2 =>
    obtain ⟨d1, d2, d3⟩ := dec_digits.1 h1
    have := parseDecimal_eq ds [] ex true d2 (by simp) (by simp) (exponent_head h2) (by simp [d1])
    simp only [if_true, List.append_nil, List.nil_append] at this
    rw [this, exponent_iff.1 h2, d3]; simp
  | @frac ds fs ex n f e h1 h3 h2 =>
    obtain ⟨d1, d2, d3⟩ := dec_digits.1 h1
    obtain ⟨f1, f2, f3⟩ := dec_digits.1 h3
    have := parseDecimal_eq ds fs ex true d2 f2 (by simp) (exponent_head h2) (by simp [d1])
    simp only [if_true] at this
    rw [List.append_assoc, List.cons_append, this, exponent_iff.1 h2, d3, f3, parseDigits_append]; simp
  | @dot fs ex f e h3 h2 =>
    obtain ⟨f1, f2, f3⟩ := dec_digits.1 h3
    have := parseDecimal_eq [] fs ex true (by simp) f2 (by simp) (exponent_head h2) (by simp [f1])
    simp only [if_true, List.nil_append] at this
    rw [List.cons_append, this, exponent_iff.1 h2, f3]; simp

theorem parse_unsigned {body : List Nat} {m : Nat} {e : Int} (h : parseDecimal body = some (m, e)) :
    Unsigned body m e := by
  obtain ⟨e1, d1, hd1⟩ := dropWhile_split isDigit body
  generalize hint : body.takeWhile isDigit = int at *
  generalize hr1 : body.dropWhile isDigit = r1 at *
  have digs : ∀ ds : List Nat, ds ≠ [] → (∀ c ∈ ds, isDigit c = true) → Digits 10 ds (parseDigits 10 ds) :=
    fun ds a b => dec_digits.2 ⟨a, b, rfl⟩
  by_cases hdot : ∃ t, r1 = 46 :: t
  · obtain ⟨t, rfl⟩ := hdot
    obtain ⟨e2, d2, hd2⟩ := dropWhile_split isDigit t
    generalize hfr : t.takeWhile isDigit = fs at *
    generalize hr2 : t.dropWhile isDigit = ex at *
    have hex46 : ¬ (int = [] ∧ fs = []) := by
      intro hh
      unfold parseDecimal at h
      simp only [hint, hr1, hfr] at h
      rw [if_pos hh] at h; cases h
    have h46 : ∀ c, ex.head? = some c → isDigit c = false ∧ c ≠ 46 := by
      intro c hc
      refine ⟨hd2 c hc, ?_⟩
      rintro rfl
      cases ex with
      | nil => cases hc
      | cons x xs =>
        simp only [List.head?_cons, Option.some.injEq] at hc
        subst hc
        unfold parseDecimal at h
        simp only [hint, hr1, hfr, hr2] at h
        rw [if_neg hex46] at h
        simp at h
    have hb : body = int ++ (if true then 46 :: (fs ++ ex) else ex) := by rw [e1, e2]; simp
    have hp := parseDecimal_eq int fs ex true d1 d2 (by simp) h46 hex46
    rw [← hb, h] at hp
    cases hpe : parseExp ex with
    | none => rw [hpe] at hp; cases hp
    | some v =>
      rw [hpe] at hp
      simp only [Option.map_some, Option.some.injEq, Prod.mk.injEq] at hp
      have hE := exponent_iff.2 hpe
      rw [hp.1, hp.2, hb]
      simp only [if_true]
      by_cases hi : int = []
      · subst hi
        have hf : fs ≠ [] := fun e => hex46 ⟨rfl, e⟩
        have := Unsigned.dot (digs fs hf d2) hE
        simpa using this
      · by_cases hf : fs = []
        · subst hf
          have := Unsigned.point (digs int hi d1) hE
          simpa using this
        · have := Unsigned.frac (digs int hi d1) (digs fs hf d2) hE
          rw [← parseDigits_append] at this
          simpa using this
  · have hi : int ≠ [] := by
      intro hh
      unfold parseDecimal at h
      simp only [hint, hr1] at h
      rw [if_pos] at h
      · cases h
      · refine ⟨hh, ?_⟩
        split
        · exact absurd ⟨_, rfl⟩ hdot
        · rfl
    have h46 : ∀ c, r1.head? = some c → isDigit c = false ∧ c ≠ 46 := by
      intro c hc
      refine ⟨hd1 c hc, ?_⟩
      rintro rfl
      cases r1 with
      | nil => cases hc
      | cons x xs => simp only [List.head?_cons, Option.some.injEq] at hc; subst hc; exact hdot ⟨_, rfl⟩
    have hp := parseDecimal_eq int [] r1 false d1 (by simp) (fun _ => rfl) h46 (by simp [hi])
    simp only [Bool.false_eq_true, if_false, List.append_nil] at hp
    rw [← e1, h] at hp
    cases hpe : parseExp r1 with
    | none => rw [hpe] at hp; cases hp
    | some v =>
      rw [hpe] at hp
      simp only [Option.map_some, Option.some.injEq, Prod.mk.injEq] at hp
      rw [hp.1, hp.2, e1]
      have := Unsigned.int (digs int hi d1) (exponent_iff.2 hpe)
      simpa using this

/-! ## The scan -/

theorem scan_digits (ds r : List Nat) (digit dot : Bool) (h : ∀ c ∈ ds, isDigit c = true) :
    scan (ds ++ r) digit dot false = scan r (digit || !ds.isEmpty) dot false := by
  induction ds generalizing digit with
  | nil => simp
  | cons c cs ih =>
    rw [List.cons_append, scan, if_pos (h c (by simp))]
    rw [ih _ fun x hx => h x (List.mem_cons_of_mem _ hx)]
    simp

theorem scan_exp {ex : List Nat} {e : Int} (h : Exponent ex e) (dot : Bool) : scan ex true dot false = true := by
  cases h with
  | none => simp [scan]
  | @some c s ds neg n h1 h2 h3 =>
    obtain ⟨d1, d2, d3⟩ := dec_digits.1 h3
    have hs := stripSign_of h2 ds fun x hx => by
      have := digit_not_sign (d2 x (List.mem_of_head? hx)); exact ⟨this.1, this.2.1⟩
    have ht := takeWhile_digits (r := []) d2 (by simp)
    simp only [List.append_nil] at ht
    have hc : isDigit c = false := by rcases h1 with rfl | rfl <;> rfl
    have hc' : c ≠ 46 := by rcases h1 with rfl | rfl <;> decide
    rw [List.cons_append, scan, if_neg (by simp [hc]), if_neg hc', if_pos h1]
    simp only [Bool.not_true, Bool.or_self, Bool.false_eq_true, if_false, hs, ht.1, ht.2, d1]
    simp [scan]

theorem unsigned_scan {body : List Nat} {m : Nat} {e : Int} (h : Unsigned body m e) :
    scan body false false false = true := by
  have dot : ∀ (r : List Nat) (digit : Bool), scan (46 :: r) digit false false = scan r digit true false := by
    intro r digit
    rw [scan]
    simp [isDigit]
  cases h with
  | int h1 h2 =>
    obtain ⟨d1, d2, d3⟩ := dec_digits.1 h1
    rw [scan_digits _ _ _ _ d2]
    simp only [Bool.false_or, List.isEmpty_eq_false_iff.2 d1, Bool.not_false]
    exact scan_exp h2 _
  | point h1 h2 =>
    obtain ⟨d1, d2, d3⟩ := dec_digits.1 h1
    rw [scan_digits _ _ _ _ d2, dot]
    simp only [Bool.false_or, List.isEmpty_eq_false_iff.2 d1, Bool.not_false]
    exact scan_exp h2 _
  | frac h1 h3 h2 =>
    obtain ⟨d1, d2, d3⟩ := dec_digits.1 h1
    obtain ⟨f1, f2, f3⟩ := dec_digits.1 h3
    rw [List.append_assoc, scan_digits _ _ _ _ d2, List.cons_append, dot, scan_digits _ _ _ _ f2]
    simp only [Bool.false_or, List.isEmpty_eq_false_iff.2 d1, Bool.not_false, Bool.true_or]
    exact scan_exp h2 _
  | dot h3 h2 =>
    obtain ⟨f1, f2, f3⟩ := dec_digits.1 h3
    rw [List.cons_append, dot, scan_digits _ _ _ _ f2]
    simp only [Bool.false_or, List.isEmpty_eq_false_iff.2 f1, Bool.not_false]
    exact scan_exp h2 _

/-! ## The characters of literals -/

/-- The characters of a decimal number. -/
def DecChar (c : Nat) : Prop := isDigit c = true ∨ c = 46 ∨ c = 101 ∨ c = 69 ∨ c = 43 ∨ c = 45

theorem digits_chars {ds : List Nat} {n : Nat} (h : Digits 10 ds n) : ∀ c ∈ ds, DecChar c :=
  fun c hc => Or.inl ((dec_digits.1 h).2.1 c hc)

theorem exponent_chars {ex : List Nat} {e : Int} (h : Exponent ex e) : ∀ c ∈ ex, DecChar c := by
  intro c hc
  cases h with
  | none => cases hc
  | some h1 h2 h3 =>
    rcases List.mem_append.1 hc with hc | hc
    · rcases List.mem_cons.1 hc with hc | hc
      · subst hc; rcases h1 with rfl | rfl <;> simp [DecChar]
      · cases h2 with
        | none => cases hc
        | plus => simp only [List.mem_singleton] at hc; subst hc; simp [DecChar]
        | minus => simp only [List.mem_singleton] at hc; subst hc; simp [DecChar]
    · exact digits_chars h3 c hc

theorem unsigned_chars {body : List Nat} {m : Nat} {e : Int} (h : Unsigned body m e) : ∀ c ∈ body, DecChar c := by
  intro c hc
  cases h with
  | int h1 h2 =>
    rcases List.mem_append.1 hc with hc | hc
    · exact digits_chars h1 c hc
    · exact exponent_chars h2 c hc
  | point h1 h2 =>
    rcases List.mem_append.1 hc with hc | hc
    · exact digits_chars h1 c hc
    · rcases List.mem_cons.1 hc with hc | hc
      · subst hc; simp [DecChar]
      · exact exponent_chars h2 c hc
  | frac h1 h3 h2 =>
    rcases List.mem_append.1 hc with hc | hc
    · rcases List.mem_append.1 hc with hc | hc
      · exact digits_chars h1 c hc
      · rcases List.mem_cons.1 hc with hc | hc
        · subst hc; simp [DecChar]
        · exact digits_chars h3 c hc
    · exact exponent_chars h2 c hc
  | dot h3 h2 =>
    rcases List.mem_append.1 hc with hc | hc
    · rcases List.mem_cons.1 hc with hc | hc
      · subst hc; simp [DecChar]
      · exact digits_chars h3 c hc
    · exact exponent_chars h2 c hc

theorem unsigned_head {body : List Nat} {m : Nat} {e : Int} (h : Unsigned body m e) :
    body ≠ [] ∧ ∀ c, body.head? = some c → isDigit c = true ∨ c = 46 := by
  have key : ∀ (ds r : List Nat) (n : Nat), Digits 10 ds n → ds ++ r ≠ [] ∧
      ∀ c, (ds ++ r).head? = some c → isDigit c = true ∨ c = 46 := by
    intro ds r n hd
    obtain ⟨d1, d2, -⟩ := dec_digits.1 hd
    cases ds with
    | nil => exact absurd rfl d1
    | cons x xs =>
      refine ⟨by simp, fun c hc => ?_⟩
      simp only [List.cons_append, List.head?_cons, Option.some.injEq] at hc
      subst hc; exact Or.inl (d2 x (by simp))
  cases h with
  | int h1 h2 => exact key _ _ _ h1
  | point h1 h2 => exact key _ _ _ h1
  | frac h1 h3 h2 =>
    rw [List.append_assoc]; exact key _ _ _ h1
  | dot h3 h2 =>
    refine ⟨by simp, fun c hc => ?_⟩
    simp only [List.cons_append, List.head?_cons, Option.some.injEq] at hc
    exact Or.inr hc.symm

theorem decChar_not {c : Nat} (h : DecChar c) : isSpace c = false ∧ c ≠ 95 ∧ c ≠ 73 ∧ c ≠ 120 ∧ c ≠ 88 ∧ c ≠ 98 ∧
    c ≠ 66 ∧ c ≠ 111 ∧ c ≠ 79 := by
  have hb : c = 46 ∨ c = 101 ∨ c = 69 ∨ c = 43 ∨ c = 45 ∨ (48 ≤ c ∧ c ≤ 57) := by
    rcases h with h | h | h | h | h | h
    · simp [isDigit] at h; omega
    all_goals omega
  refine ⟨?_, by omega, by omega, by omega, by omega, by omega, by omega, by omega, by omega⟩
  rw [Bool.eq_false_iff]
  intro hs
  have := (isSpace_iff c).1 hs
  unfold SpaceChar at this
  omega

theorem hasPrefix_none {lower upper : Nat} {body : List Nat} (h : ∀ c ∈ body, c ≠ lower ∧ c ≠ upper) :
    hasPrefix lower upper body = none := by
  unfold hasPrefix
  split
  · rename_i c cs
    have := h c (by simp)
    rw [if_neg (by omega)]
  · rfl

theorem hasPrefix_some {lower upper : Nat} {body ds : List Nat} (h : hasPrefix lower upper body = some ds) :
    ∃ c, (c = lower ∨ c = upper) ∧ body = 48 :: c :: ds := by
  unfold hasPrefix at h
  split at h
  · rename_i c cs
    split at h
    · rename_i hc
      cases h
      exact ⟨c, hc, rfl⟩
    · cases h
  · cases h

theorem digit_not_space {radix c : Nat} (hr : radix ≤ 16) (h : (toDigit radix c).isSome = true) :
    isSpace c = false := by
  obtain ⟨d, hd⟩ := Option.isSome_iff_exists.1 h
  rw [Bool.eq_false_iff]
  intro hs
  have := (isSpace_iff c).1 hs
  unfold SpaceChar at this
  cases (digit_iff hr).2 hd <;> omega

/-- A literal whose characters are not white space. -/
theorem noSpace_trim {a l b : List Nat} (ha : Blank a) (hb : Blank b) (hne : l ≠ [])
    (h : ∀ c ∈ l, isSpace c = false) : trim (a ++ l ++ b) = l :=
  trim_of ha hb hne (fun c hc => h c (List.mem_of_head? hc)) fun c hc => h c (List.mem_of_getLast? hc)

theorem nonDecimal_chars {s : List Nat} {n : Nat} (h : NonDecimal s n) :
    s ≠ [] ∧ ∀ c ∈ s, isSpace c = false := by
  have key : ∀ (radix c : Nat) (ds : List Nat) (n : Nat), radix ≤ 16 → isSpace c = false → Digits radix ds n →
      (48 :: c :: ds) ≠ [] ∧ ∀ x ∈ 48 :: c :: ds, isSpace x = false := by
    intro radix c ds n hr hc hd
    refine ⟨by simp, fun x hx => ?_⟩
    simp only [List.mem_cons] at hx
    rcases hx with rfl | rfl | hx
    · decide
    · exact hc
    · exact digit_not_space hr ((digits_parse hr hd).2.1 x hx)
  cases h with
  | bin h1 h2 => exact key 2 _ _ _ (by decide) (by rcases h1 with rfl | rfl <;> decide) h2
  | oct h1 h2 => exact key 8 _ _ _ (by decide) (by rcases h1 with rfl | rfl <;> decide) h2
  | hex h1 h2 => exact key 16 _ _ _ (by decide) (by rcases h1 with rfl | rfl <;> decide) h2

theorem sign_chars {s : List Nat} {neg : Bool} (h : Sign s neg) : ∀ c ∈ s, isSpace c = false := by
  cases h with
  | none => simp
  | plus => simp; decide
  | minus => simp; decide

theorem literal_chars {l : List Nat} {x : F64} (h : NumericLiteral l x) :
    l ≠ [] ∧ ∀ c ∈ l, isSpace c = false := by
  cases h with
  | nonDecimal h => exact nonDecimal_chars h
  | infinity h =>
    refine ⟨by simp, fun c hc => ?_⟩
    rcases List.mem_append.1 hc with hc | hc
    · exact sign_chars h c hc
    · simp only [List.mem_cons, List.not_mem_nil, or_false] at hc
      rcases hc with rfl | rfl | rfl | rfl | rfl | rfl | rfl | rfl <;> decide
  | decimal h1 h2 =>
    refine ⟨by simp [(unsigned_head h2).1], fun c hc => ?_⟩
    rcases List.mem_append.1 hc with hc | hc
    · exact sign_chars h1 c hc
    · exact (decChar_not (unsigned_chars h2 c hc)).1

/-! ## `coerceStr` -/

/-- `coerceStr` after trimming. -/
def coerceLit (raw : List Nat) : F64 :=
  if (stripSign raw).2.2 = [] then .nan
  else if (stripSign raw).2.2 = infinityText then .inf (stripSign raw).2.1
  else
    match hasPrefix 120 88 (stripSign raw).2.2 with
    | some ds => if (stripSign raw).1 then .nan else intOrNan (parseIntDigits ds 16)
    | none =>
      match hasPrefix 98 66 (stripSign raw).2.2 with
      | some ds => if (stripSign raw).1 then .nan else intOrNan (parseIntDigits ds 2)
      | none =>
        match hasPrefix 111 79 (stripSign raw).2.2 with
        | some ds => if (stripSign raw).1 then .nan else intOrNan (parseIntDigits ds 8)
        | none =>
          if (stripSign raw).2.2.contains 95 then .nan
          else if scan (stripSign raw).2.2 false false false then
            match parseDecimal (stripSign raw).2.2 with
            | some (m, e) => ofDecimal (stripSign raw).2.1 m e
            | none => .nan
          else .nan

theorem coerceStr_eq (s : List Nat) : coerceStr s = if trim s = [] then .fin false 0 else coerceLit (trim s) := rfl

theorem ofRatio_not_nan (neg : Bool) (p q : Nat) : ofRatio neg p q ≠ .nan := by
  unfold ofRatio; split <;> simp

theorem ofDecimal_not_nan (neg : Bool) (m : Nat) (e : Int) : ofDecimal neg m e ≠ .nan := by
  unfold ofDecimal; split <;> exact ofRatio_not_nan _ _ _

theorem literal_not_nan {l : List Nat} {x : F64} (h : NumericLiteral l x) : x ≠ .nan := by
  cases h with
  | nonDecimal h => exact ofRatio_not_nan _ _ _
  | infinity h => simp
  | decimal h1 h2 => exact ofDecimal_not_nan _ _ _

theorem stripSign_zero (c : Nat) (ds : List Nat) : stripSign (48 :: c :: ds) = (false, false, 48 :: c :: ds) := rfl

theorem literal_coerce {l : List Nat} {x : F64} (h : NumericLiteral l x) : coerceLit l = x := by
  cases h with
  | nonDecimal h =>
    cases h with
    | bin h1 h2 =>
      have := (parseIntDigits_iff (by decide)).2 h2
      rcases h1 with rfl | rfl <;> simp [coerceLit, stripSign_zero, hasPrefix, this, intOrNan, infinityText]
    | oct h1 h2 =>
      have := (parseIntDigits_iff (by decide)).2 h2
      rcases h1 with rfl | rfl <;> simp [coerceLit, stripSign_zero, hasPrefix, this, intOrNan, infinityText]
    | hex h1 h2 =>
      have := (parseIntDigits_iff (by decide)).2 h2
      rcases h1 with rfl | rfl <;> simp [coerceLit, stripSign_zero, hasPrefix, this, intOrNan, infinityText]
  | infinity h =>
    have := stripSign_of h [73, 110, 102, 105, 110, 105, 116, 121] (by simp)
    simp [coerceLit, this, infinityText]
  | @decimal s body neg m e h1 h2 =>
    obtain ⟨u1, u2⟩ := unsigned_head h2
    have hs := stripSign_of h1 body fun c hc => by
      rcases u2 c hc with h | h
      · have := digit_not_sign h; exact ⟨this.1, this.2.1⟩
      · omega
    have uc : ∀ c ∈ body, _ := fun c hc => decChar_not (unsigned_chars h2 c hc)
    have hinf : body ≠ infinityText := by
      intro e
      exact (uc 73 (by rw [e]; decide)).2.2.1 rfl
    have h95 : body.contains 95 = false := by
      rw [Bool.eq_false_iff]
      intro e
      exact (uc 95 (by simpa using e)).2.1 rfl
    unfold coerceLit
    simp only [hs]
    rw [if_neg u1, if_neg hinf,
      hasPrefix_none (lower := 120) (upper := 88) fun c hc => ⟨(uc c hc).2.2.2.1, (uc c hc).2.2.2.2.1⟩,
      hasPrefix_none (lower := 98) (upper := 66) fun c hc =>
        ⟨(uc c hc).2.2.2.2.2.1, (uc c hc).2.2.2.2.2.2.1⟩,
      hasPrefix_none (lower := 111) (upper := 79) fun c hc =>
        ⟨(uc c hc).2.2.2.2.2.2.2.1, (uc c hc).2.2.2.2.2.2.2.2⟩]
    simp only [h95, unsigned_scan h2, unsigned_parse h2, Bool.false_eq_true, if_false, if_true]

theorem coerce_literal {l : List Nat} (h : coerceLit l ≠ .nan) : NumericLiteral l (coerceLit l) := by
  obtain ⟨s, hs, el, hsig⟩ := stripSign_split l
  have hsz : (stripSign l).1 = false → s = [] := by
    intro h; rw [h] at hsig; simpa using hsig.symm
  generalize hv : coerceLit l = x at *
  unfold coerceLit at hv
  generalize stripSign l = t at *
  obtain ⟨sg, neg, body⟩ := t
  simp only at *
  have int : ∀ (radix : Nat) (ds : List Nat), radix ≤ 16 → intOrNan (parseIntDigits ds radix) ≠ .nan →
      ∃ n, Digits radix ds n ∧ intOrNan (parseIntDigits ds radix) = ofInt n := by
    intro radix ds hr hne
    cases hp : parseIntDigits ds radix with
    | none => rw [hp] at hne; exact absurd rfl hne
    | some n => exact ⟨n, (parseIntDigits_iff hr).1 hp, rfl⟩
  split at hv
  · exact absurd hv.symm h
  split at hv
  · rename_i e
    subst hv
    rw [el, e]
    exact .infinity hs
  split at hv
  · rename_i ds hp
    split at hv
    · exact absurd hv.symm h
    · rename_i hsg
      rw [hsz (by simpa using hsg)] at el
      obtain ⟨c, hc, hb⟩ := hasPrefix_some hp
      rw [← hv] at h
      obtain ⟨n, hn, e⟩ := int 16 ds (by decide) h
      rw [← hv, e, el, List.nil_append, hb]
      exact .nonDecimal (.hex hc hn)
  split at hv
  · rename_i ds hp
    split at hv
    · exact absurd hv.symm h
    · rename_i hsg
      rw [hsz (by simpa using hsg)] at el
      obtain ⟨c, hc, hb⟩ := hasPrefix_some hp
      rw [← hv] at h
      obtain ⟨n, hn, e⟩ := int 2 ds (by decide) h
      rw [← hv, e, el, List.nil_append, hb]
      exact .nonDecimal (.bin hc hn)
  split at hv
  · rename_i ds hp
    split at hv
    · exact absurd hv.symm h
    · rename_i hsg
      rw [hsz (by simpa using hsg)] at el
      obtain ⟨c, hc, hb⟩ := hasPrefix_some hp
      rw [← hv] at h
      obtain ⟨n, hn, e⟩ := int 8 ds (by decide) h
      rw [← hv, e, el, List.nil_append, hb]
      exact .nonDecimal (.oct hc hn)
  split at hv
  · exact absurd hv.symm h
  split at hv
  · split at hv
    · rename_i m e hp
      rw [← hv, el]
      exact .decimal hs (parse_unsigned hp)
    · exact absurd hv.symm h
  · exact absurd hv.symm h

theorem stringNumeric_coerce {s : List Nat} {x : F64} (h : StringNumeric s x) : coerceStr s = x ∧ x ≠ .nan := by
  rw [coerceStr_eq]
  cases h with
  | empty h => rw [if_pos (trim_nil.2 h)]; simp
  | lit ha hl hb =>
    obtain ⟨l1, l2⟩ := literal_chars hl
    rw [noSpace_trim ha hb l1 l2, if_neg l1]
    exact ⟨literal_coerce hl, literal_not_nan hl⟩

theorem coerceStr_spec (s : List Nat) : StringToNumber s (coerceStr s) := by
  by_cases hn : coerceStr s = .nan
  · refine Or.inr ⟨?_, hn⟩
    rintro ⟨y, hy⟩
    have := stringNumeric_coerce hy
    rw [hn] at this
    exact this.2 this.1.symm
  · refine Or.inl ?_
    rw [coerceStr_eq] at hn ⊢
    split
    · rename_i h
      exact .empty (trim_nil.1 h)
    · rename_i h
      rw [if_neg h] at hn
      obtain ⟨a, b, ha, hb, e⟩ := trim_split s
      have := StringNumeric.lit ha (coerce_literal hn) hb
      rw [← e] at this
      exact this

theorem coerceStr_iff {s : List Nat} {x : F64} : StringToNumber s x ↔ coerceStr s = x := by
  constructor
  · rintro (h | ⟨h1, h2⟩)
    · exact (stringNumeric_coerce h).1
    · rcases coerceStr_spec s with h | ⟨-, h⟩
      · exact absurd ⟨_, h⟩ h1
      · rw [h, h2]
  · rintro rfl
    exact coerceStr_spec s

/-! ## `parseBigint` -/

/-- A text with a sign before a non-decimal literal: `-0x10`. -/
def SignedRadix (s : List Nat) : Prop :=
  ∃ a sg l b n, Blank a ∧ Blank b ∧ (sg = 43 ∨ sg = 45) ∧ NonDecimal l n ∧ s = a ++ sg :: l ++ b

theorem integer_chars {l : List Nat} {v : Int} (h : IntegerLiteral l v) :
    l ≠ [] ∧ ∀ c ∈ l, isSpace c = false := by
  cases h with
  | nonDecimal h => exact nonDecimal_chars h
  | decimal h1 h2 =>
    obtain ⟨d1, d2, -⟩ := dec_digits.1 h2
    refine ⟨by simp [d1], fun c hc => ?_⟩
    rcases List.mem_append.1 hc with hc | hc
    · exact sign_chars h1 c hc
    · exact digit_not_space (radix := 10) (by decide) ((isDigit_iff c).1 (d2 c hc))

/-- `parseBigint` after trimming. -/
def bigLit (l : List Nat) : Option Int :=
  if l = [] then none
  else if (stripSign l).2.2 = [] then none
  else
    match parseIntDigits (splitRadix (stripSign l).2.2).2 (splitRadix (stripSign l).2.2).1 with
    | none => none
    | some v => some (if (stripSign l).2.1 then -(v : Int) else v)

theorem parseBigint_eq (s : List Nat) : parseBigint s = bigLit (trim s) := rfl

theorem splitRadix_dec {ds : List Nat} (h : ∀ c ∈ ds, isDigit c = true) : splitRadix ds = (10, ds) := by
  have uc : ∀ c ∈ ds, _ := fun c hc => decChar_not (Or.inl (h c hc))
  unfold splitRadix
  rw [hasPrefix_none (lower := 120) (upper := 88) fun c hc => ⟨(uc c hc).2.2.2.1, (uc c hc).2.2.2.2.1⟩,
      hasPrefix_none (lower := 98) (upper := 66) fun c hc =>
        ⟨(uc c hc).2.2.2.2.2.1, (uc c hc).2.2.2.2.2.2.1⟩,
      hasPrefix_none (lower := 111) (upper := 79) fun c hc =>
        ⟨(uc c hc).2.2.2.2.2.2.2.1, (uc c hc).2.2.2.2.2.2.2.2⟩]

theorem integer_parse {l : List Nat} {v : Int} (h : IntegerLiteral l v) : bigLit l = some v := by
  cases h with
  | nonDecimal h =>
    cases h with
    | bin h1 h2 =>
      have := (parseIntDigits_iff (by decide)).2 h2
      rcases h1 with rfl | rfl <;> simp [bigLit, stripSign_zero, splitRadix, hasPrefix, this]
    | oct h1 h2 =>
      have := (parseIntDigits_iff (by decide)).2 h2
      rcases h1 with rfl | rfl <;> simp [bigLit, stripSign_zero, splitRadix, hasPrefix, this]
    | hex h1 h2 =>
      have := (parseIntDigits_iff (by decide)).2 h2
      rcases h1 with rfl | rfl <;> simp [bigLit, stripSign_zero, splitRadix, hasPrefix, this]
  | @decimal s ds neg n h1 h2 =>
    obtain ⟨d1, d2, d3⟩ := dec_digits.1 h2
    have hs := stripSign_of h1 ds fun c hc => by
      have := digit_not_sign (d2 c (List.mem_of_head? hc)); exact ⟨this.1, this.2.1⟩
    unfold bigLit
    simp only [hs, splitRadix_dec d2, (parseIntDigits_iff (by decide)).2 h2]
    rw [if_neg (by simp [d1]), if_neg d1]

theorem parse_integer {l : List Nat} {v : Int} (h : bigLit l = some v) :
    IntegerLiteral l v ∨ ∃ sg r n, (sg = 43 ∨ sg = 45) ∧ NonDecimal r n ∧ l = sg :: r := by
  obtain ⟨s, hs, el, hsig⟩ := stripSign_split l
  unfold bigLit at h
  generalize stripSign l = t at *
  obtain ⟨sg, neg, body⟩ := t
  simp only at *
  split at h
  · cases h
  split at h
  · cases h
  cases hp : parseIntDigits (splitRadix body).2 (splitRadix body).1 with
  | none => rw [hp] at h; cases h
  | some n =>
    rw [hp] at h
    simp only [Option.some.injEq] at h
    have nd : NonDecimal body n → IntegerLiteral l v ∨ ∃ sg r n, (sg = 43 ∨ sg = 45) ∧ NonDecimal r n ∧ l = sg :: r := by
      intro hnd
      cases hs with
      | none =>
        left
        rw [el, List.nil_append, ← h]
        exact .nonDecimal hnd
      | plus => exact Or.inr ⟨43, body, n, Or.inl rfl, hnd, el⟩
      | minus => exact Or.inr ⟨45, body, n, Or.inr rfl, hnd, el⟩
    unfold splitRadix at hp
    split at hp
    · rename_i r hr
      obtain ⟨c, hc, hb⟩ := hasPrefix_some hr
      exact nd (by rw [hb]; exact .bin hc ((parseIntDigits_iff (by decide)).1 hp))
    · split at hp
      · rename_i r hr
        obtain ⟨c, hc, hb⟩ := hasPrefix_some hr
        exact nd (by rw [hb]; exact .oct hc ((parseIntDigits_iff (by decide)).1 hp))
      · split at hp
        · rename_i r hr
          obtain ⟨c, hc, hb⟩ := hasPrefix_some hr
          exact nd (by rw [hb]; exact .hex hc ((parseIntDigits_iff (by decide)).1 hp))
        · left
          rw [el, ← h]
          exact .decimal hs ((parseIntDigits_iff (by decide)).1 hp)

theorem parseBigint_spec {s : List Nat} (h1 : ¬ Blank s) (h2 : ¬ SignedRadix s) :
    StringToBigInt s (parseBigint s) := by
  rw [parseBigint_eq]
  obtain ⟨a, b, ha, hb, e⟩ := trim_split s
  cases hp : bigLit (trim s) with
  | some v =>
    rcases parse_integer hp with h | ⟨sg, r, n, hsg, hr, er⟩
    · refine Or.inl ⟨v, ?_, rfl⟩
      have := StringInteger.lit ha h hb
      rwa [← e] at this
    · rw [er] at e
      exact absurd ⟨a, sg, r, b, n, ha, hb, hsg, hr, e⟩ h2
  | none =>
    refine Or.inr ⟨?_, rfl⟩
    rintro ⟨v, hv⟩
    cases hv with
    | empty h => exact h1 h
    | lit ha' hl hb' =>
      obtain ⟨l1, l2⟩ := integer_chars hl
      rw [noSpace_trim ha' hb' l1 l2, integer_parse hl] at hp
      cases hp

theorem stringInteger_unique {s : List Nat} {v w : Int} (h1 : StringInteger s v) (h2 : StringInteger s w) :
    v = w := by
  have key : ∀ {v}, StringInteger s v → v = if trim s = [] then 0 else (bigLit (trim s)).getD 0 := by
    intro v h
    cases h with
    | empty h => rw [if_pos (trim_nil.2 h)]
    | lit ha hl hb =>
      obtain ⟨l1, l2⟩ := integer_chars hl
      rw [noSpace_trim ha hb l1 l2, if_neg l1, integer_parse hl]; rfl
  rw [key h1, key h2]

theorem stringToBigInt_unique {s : List Nat} {o p : Option Int} (h1 : StringToBigInt s o) (h2 : StringToBigInt s p) :
    o = p := by
  rcases h1 with ⟨v, a1, a2⟩ | ⟨a1, a2⟩ <;> rcases h2 with ⟨w, b1, b2⟩ | ⟨b1, b2⟩
  · rw [a2, b2, stringInteger_unique a1 b1]
  · exact absurd ⟨_, a1⟩ b1
  · exact absurd ⟨_, b1⟩ a1
  · rw [a2, b2]

end Verif.Eval
