import Verif.Values.Spec
/-!
# Lemmas on BigInts, strings and positions
-/

namespace Verif.Values

/-! ## BigInt -/

theorem val_neg (b : Big) : b.negate.val = -b.val := by
  unfold Big.negate Big.isZero Big.val
  by_cases h : b.magnitude = 0
  · simp [h]
  · cases hb : b.negative <;> simp [h]

theorem wf_neg {b : Big} (h : b.WF) : b.negate.WF := by
  unfold Big.negate Big.isZero
  by_cases h0 : b.magnitude = 0
  · simpa [h0] using h
  · rw [if_neg (by simpa using h0)]
    exact ⟨h.1, fun _ => h0⟩

theorem wf_isNegative {b : Big} (h : b.WF) : b.isNegative = b.negative := by
  unfold Big.isNegative Big.isZero
  cases hb : b.negative
  · rfl
  · have := h.2 hb
    simp [this]

theorem mixed_spec {a b : Big} (ha : a.WF) (hb : b.WF) (hs : a.negative ≠ b.negative) :
    (a.addMixed b).WF ∧ (a.addMixed b).val = a.val + b.val := by
  unfold Big.addMixed
  rw [wf_isNegative ha, wf_isNegative hb]
  obtain ⟨na, ma⟩ := a
  obtain ⟨nb, mb⟩ := b
  obtain ⟨ha1, ha2⟩ := ha
  obtain ⟨hb1, hb2⟩ := hb
  simp only at ha1 ha2 hb1 hb2 hs ⊢
  by_cases h : mb ≤ ma
  · rw [if_pos h]
    by_cases h0 : ma - mb = 0
    · rw [if_pos h0]
      refine ⟨⟨by simp [Big.zero], by simp [Big.zero]⟩, ?_⟩
      cases na <;> cases nb <;> simp at hs <;> simp [Big.val, Big.zero] <;> omega
    · rw [if_neg h0]
      refine ⟨⟨by simp only; omega, fun _ => h0⟩, ?_⟩
      cases na <;> cases nb <;> simp at hs <;> simp [Big.val] <;> omega
  · rw [if_neg h, if_neg (by omega)]
    refine ⟨⟨by simp only; omega, fun _ => by simp only; omega⟩, ?_⟩
    cases na <;> cases nb <;> simp at hs <;> simp [Big.val] <;> omega

theorem add_spec {a b : Big} (ha : a.WF) (hb : b.WF) :
    match a.checkedAdd b with
    | some c => c.WF ∧ c.val = a.val + b.val
    | none => 2 ^ 128 ≤ (a.val + b.val).natAbs := by
  unfold Big.checkedAdd
  rw [wf_isNegative ha, wf_isNegative hb]
  obtain ⟨na, ma⟩ := a
  obtain ⟨nb, mb⟩ := b
  obtain ⟨ha1, ha2⟩ := ha
  obtain ⟨hb1, hb2⟩ := hb
  simp only at ha1 ha2 hb1 hb2
  cases na <;> cases nb
  · simp only [addU]
    by_cases h : ma + mb < 2 ^ 128
    · simp only [h, if_true, Option.map_some]
      exact ⟨⟨h, by simp [Big.fromU]⟩, by simp [Big.fromU, Big.val]⟩
    · simp only [h, if_false, Option.map_none, Big.val]
      simp
      omega
  · exact mixed_spec ⟨ha1, ha2⟩ ⟨hb1, hb2⟩ (by simp)
  · exact mixed_spec ⟨ha1, ha2⟩ ⟨hb1, hb2⟩ (by simp)
  · simp only [addU]
    have := ha2 rfl
    by_cases h : ma + mb < 2 ^ 128
    · simp only [h, if_true, Option.map_some]
      exact ⟨⟨h, fun _ => by simp; omega⟩, by simp [Big.val]; omega⟩
    · simp only [h, if_false, Option.map_none, Big.val]
      simp
      omega

theorem mul_spec {a b : Big} (ha : a.WF) (hb : b.WF) :
    match a.checkedMul b with
    | some c => c.WF ∧ c.val = a.val * b.val
    | none => 2 ^ 128 ≤ (a.val * b.val).natAbs := by
  have habs : (a.val * b.val).natAbs = a.magnitude * b.magnitude := by
    rw [Int.natAbs_mul]
    unfold Big.val
    cases a.negative <;> cases b.negative <;> simp
  unfold Big.checkedMul mulU
  by_cases h : a.magnitude * b.magnitude < 2 ^ 128
  · simp only [h, if_true]
    by_cases h0 : a.magnitude * b.magnitude = 0
    · rw [if_pos h0]
      refine ⟨⟨by simp [Big.zero], by simp [Big.zero]⟩, ?_⟩
      rw [h0] at habs
      rw [Int.natAbs_eq_zero.1 habs]
      simp [Big.zero, Big.val]
    · rw [if_neg h0, wf_isNegative ha, wf_isNegative hb]
      refine ⟨⟨h, fun _ => h0⟩, ?_⟩
      unfold Big.val
      cases a.negative <;> cases b.negative <;> simp [Int.neg_mul, Int.mul_neg]
  · simp only [h, if_false, habs]
    omega

theorem val_inj {a b : Big} (ha : a.WF) (hb : b.WF) (h : a.val = b.val) : a = b := by
  obtain ⟨na, ma⟩ := a
  obtain ⟨nb, mb⟩ := b
  have h1 := ha.2
  have h2 := hb.2
  simp only at h1 h2
  unfold Big.val at h
  cases na <;> cases nb <;> simp at h h1 h2
  · congr 1; omega
  · omega
  · omega
  · congr 1; omega

theorem foldl_ge (cs : List Nat) : ∀ n : Nat, n ≤ cs.foldl (fun n c => n * 10 + (c - 48)) n := by
  induction cs with
  | nil => intro n; exact Nat.le_refl _
  | cons c cs ih =>
    intro n
    have := ih (n * 10 + (c - 48))
    simp only [List.foldl_cons]
    omega

theorem parseStep_spec (M : Nat) (hM : M = 2 ^ 128) (acc c : Nat) (h : 48 ≤ c ∧ c ≤ 57) :
    parseStep acc c = if acc * 10 + (c - 48) < M then some (acc * 10 + (c - 48)) else none := by
  unfold parseStep mulU addU
  rw [if_pos h, ← hM]
  by_cases hm : acc * 10 < M
  · rw [if_pos hm]; rfl
  · rw [if_neg hm, if_neg (by omega)]; rfl

theorem parseLoop_gen (M : Nat) (hM : M = 2 ^ 128) (cs : List Nat)
    (hc : ∀ c ∈ cs, 48 ≤ c ∧ c ≤ 57) (acc : Nat) (hacc : acc < M) :
    parseLoop acc cs =
      if cs.foldl (fun n c => n * 10 + (c - 48)) acc < M then
        some (cs.foldl (fun n c => n * 10 + (c - 48)) acc)
      else none := by
  unfold parseLoop
  induction cs generalizing acc with
  | nil => rw [List.foldl_nil, if_pos hacc]; rfl
  | cons c cs ih =>
    have h1 := hc c (List.mem_cons_self ..)
    have hge := foldl_ge cs (acc * 10 + (c - 48))
    rw [List.foldlM_cons, parseStep_spec M hM acc c h1, List.foldl_cons]
    by_cases ha : acc * 10 + (c - 48) < M
    · rw [if_pos ha]
      exact ih (fun c h => hc c (List.mem_cons_of_mem _ h)) _ ha
    · rw [if_neg ha, if_neg (by omega)]
      rfl

theorem parseLoop_spec (cs : List Nat) (hc : ∀ c ∈ cs, 48 ≤ c ∧ c ≤ 57) (acc : Nat)
    (hacc : acc < 2 ^ 128) :
    parseLoop acc cs =
      if cs.foldl (fun n c => n * 10 + (c - 48)) acc < 2 ^ 128 then
        some (cs.foldl (fun n c => n * 10 + (c - 48)) acc)
      else none := parseLoop_gen _ rfl cs hc acc hacc

theorem parse_spec {ds : List Nat} (h : IsDigits ds) :
    parseU128 ds = if decimalValue ds < 2 ^ 128 then some (decimalValue ds) else none := by
  obtain ⟨hne, hc⟩ := h
  have key := parseLoop_spec ds hc 0 (by decide)
  unfold decimalValue
  rw [← key]
  cases ds with
  | nil => exact absurd rfl hne
  | cons c cs =>
    have h43 : c ≠ 43 := by have := hc c (List.mem_cons_self ..); omega
    cases cs with
    | nil => simp [parseU128, h43]
    | cons d cs => simp [parseU128, h43]

theorem digitsRev_spec : ∀ fuel n, n < fuel →
    (digitsRev fuel n).foldr (fun c m => m * 10 + (c - 48)) 0 = n ∧
    (∀ c ∈ digitsRev fuel n, 48 ≤ c ∧ c ≤ 57) ∧ digitsRev fuel n ≠ [] ∧
    (n ≠ 0 → (digitsRev fuel n).getLast? ≠ some 48) ∧
    (n = 0 → digitsRev fuel n = [48]) := by
  intro fuel
  induction fuel with
  | zero => intro n h; omega
  | succ fuel ih =>
    intro n h
    unfold digitsRev
    by_cases h10 : n < 10
    · simp only [h10, if_true]
      refine ⟨by simp, ?_, by simp, ?_, ?_⟩
      · intro c hc; simp at hc; omega
      · intro hn; simp; omega
      · intro hn; simp [hn]
    · simp only [h10, if_false]
      obtain ⟨h1, h2, h3, h4, _⟩ := ih (n / 10) (by omega)
      refine ⟨?_, ?_, by simp, ?_, ?_⟩
      · simp only [List.foldr_cons, h1]; omega
      · intro c hc
        rcases List.mem_cons.1 hc with rfl | hc
        · omega
        · exact h2 c hc
      · intro _
        have := h4 (by omega)
        rw [List.getLast?_cons]
        intro e
        cases hd : (digitsRev fuel (n / 10)).getLast? with
        | none => rw [List.getLast?_eq_none_iff] at hd; exact h3 hd
        | some x =>
          rw [hd] at e this
          simp at e this
          exact this e
      · intro hn; omega

theorem toDigits_value (n : Nat) : decimalValue (toDigits n) = n := by
  have := (digitsRev_spec (n + 1) n (Nat.lt_succ_self n)).1
  unfold decimalValue toDigits
  rw [List.foldl_reverse]
  exact this

theorem toDigits_digits (n : Nat) : IsDigits (toDigits n) := by
  obtain ⟨_, h2, h3, _⟩ := digitsRev_spec (n + 1) n (Nat.lt_succ_self n)
  refine ⟨by simpa [toDigits] using h3, fun c hc => h2 c ?_⟩
  simpa [toDigits] using hc

theorem toDigits_head (n : Nat) (hn : n ≠ 0) : (toDigits n).head? ≠ some 48 := by
  obtain ⟨_, _, _, h4, _⟩ := digitsRev_spec (n + 1) n (Nat.lt_succ_self n)
  unfold toDigits
  rw [List.head?_reverse]
  exact h4 hn

/-! ## Strings -/

theorem cmpSlice_lt (a b : List Nat) : cmpSlice a b = .lt ↔ LexLt a b := by
  induction a generalizing b with
  | nil =>
    cases b with
    | nil =>
      simp only [cmpSlice, reduceCtorEq, false_iff]
      rintro ⟨i, _, h | ⟨x, y, h, _⟩⟩
      · simp at h
      · simp at h
    | cons y bs =>
      simp only [cmpSlice, true_iff]
      exact ⟨0, by simp, .inl ⟨rfl, by simp⟩⟩
  | cons x as ih =>
    cases b with
    | nil =>
      simp only [cmpSlice, reduceCtorEq, false_iff]
      rintro ⟨i, _, h | ⟨x, y, _, h, _⟩⟩
      · simp at h
      · simp at h
    | cons y bs =>
      simp only [cmpSlice]
      by_cases h1 : x < y
      · simp only [h1, if_true, true_iff]
        exact ⟨0, by simp, .inr ⟨x, y, rfl, rfl, h1⟩⟩
      · simp only [h1, if_false]
        by_cases h2 : y < x
        · simp only [h2, if_true, reduceCtorEq, false_iff]
          rintro ⟨i, ht, h⟩
          cases i with
          | zero =>
            rcases h with h | ⟨x', y', hx, hy, hl⟩
            · simp at h
            · simp at hx hy; omega
          | succ i =>
            simp at ht
            omega
        · have he : x = y := by omega
          subst he
          simp only [h2, if_false, ih]
          constructor
          · rintro ⟨i, ht, h⟩
            refine ⟨i + 1, by simp [ht], ?_⟩
            rcases h with ⟨h, h'⟩ | ⟨x', y', hx, hy, hl⟩
            · exact .inl ⟨by simp [h], by simpa using h'⟩
            · exact .inr ⟨x', y', by simpa using hx, by simpa using hy, hl⟩
          · rintro ⟨i, ht, h⟩
            cases i with
            | zero =>
              rcases h with h | ⟨x', y', hx, hy, hl⟩
              · simp at h
              · simp at hx hy; omega
            | succ i =>
              refine ⟨i, by simpa using ht, ?_⟩
              rcases h with ⟨h, h'⟩ | ⟨x', y', hx, hy, hl⟩
              · exact .inl ⟨by simpa using h, by simpa using h'⟩
              · exact .inr ⟨x', y', by simpa using hx, by simpa using hy, hl⟩

theorem cmpSlice_eq (a b : List Nat) : cmpSlice a b = .eq ↔ a = b := by
  induction a generalizing b with
  | nil => cases b <;> simp [cmpSlice]
  | cons x as ih =>
    cases b with
    | nil => simp [cmpSlice]
    | cons y bs =>
      simp only [cmpSlice]
      by_cases h1 : x < y
      · simp only [h1, if_true, reduceCtorEq, false_iff, List.cons.injEq]; omega
      · by_cases h2 : y < x
        · simp only [h1, h2, if_false, if_true, reduceCtorEq, false_iff, List.cons.injEq]; omega
        · have he : x = y := by omega
          simp [h1, h2, ih, he]

theorem cmpSlice_swap (a b : List Nat) : (cmpSlice a b).swap = cmpSlice b a := by
  induction a generalizing b with
  | nil => cases b <;> rfl
  | cons x as ih =>
    cases b with
    | nil => rfl
    | cons y bs =>
      simp only [cmpSlice]
      by_cases h1 : x < y
      · simp [h1, Nat.lt_asymm h1]
      · by_cases h2 : y < x
        · simp [h1, h2]
        · simp [h1, h2, ih]

theorem cmpSlice_trans {a b c : List Nat} (h1 : cmpSlice a b = .lt) (h2 : cmpSlice b c = .lt) :
    cmpSlice a c = .lt := by
  induction a generalizing b c with
  | nil =>
    cases c with
    | nil => cases b <;> simp [cmpSlice] at h2
    | cons z cs => rfl
  | cons x as ih =>
    cases b with
    | nil => simp [cmpSlice] at h1
    | cons y bs =>
      cases c with
      | nil => simp [cmpSlice] at h2
      | cons z cs =>
        simp only [cmpSlice] at h1 h2 ⊢
        by_cases a1 : x < y
        · by_cases b1 : y < z
          · rw [if_pos (by omega)]
          · rw [if_neg b1] at h2
            by_cases b2 : z < y
            · rw [if_pos b2] at h2; cases h2
            · rw [if_pos (by omega)]
        · rw [if_neg a1] at h1
          by_cases a2 : y < x
          · rw [if_pos a2] at h1; cases h1
          · rw [if_neg a2] at h1
            have he : x = y := by omega
            subst he
            by_cases b1 : x < z
            · rw [if_pos b1]
            · rw [if_neg b1] at h2 ⊢
              by_cases b2 : z < x
              · rw [if_pos b2] at h2; cases h2
              · rw [if_neg b2] at h2 ⊢
                exact ih h1 h2

theorem cmpIter_eq (a b : List Nat) : cmpIter a b = cmpSlice a b := by
  induction a generalizing b with
  | nil => cases b <;> rfl
  | cons x as ih =>
    cases b with
    | nil => rfl
    | cons y bs =>
      simp only [cmpIter, cmpSlice]
      rcases Nat.lt_trichotomy x y with h | h | h
      · rw [Nat.compare_eq_lt.2 h, if_pos h]
      · subst h
        rw [Nat.compare_eq_eq.2 rfl, if_neg (Nat.lt_irrefl _), if_neg (Nat.lt_irrefl _)]
        exact ih bs
      · rw [Nat.compare_eq_gt.2 h, if_neg (Nat.lt_asymm h), if_pos h]

/-- The encoding of a character cannot be confused with another's. -/
theorem encode_cons_inj {c d : Nat} (hc : IsScalar c) (hd : IsScalar d) {x y : List Nat}
    (h : encodeChar c ++ x = encodeChar d ++ y) : c = d ∧ x = y := by
  unfold encodeChar at h
  unfold IsScalar at hc hd
  by_cases h1 : c < 0x10000 <;> by_cases h2 : d < 0x10000
  · simp [h1, h2] at h; exact h
  · simp only [h1, h2, if_true, if_false, List.cons_append, List.nil_append, List.cons.injEq] at h
    omega
  · simp only [h1, h2, if_true, if_false, List.cons_append, List.nil_append, List.cons.injEq] at h
    omega
  · simp only [h1, h2, if_false, List.cons_append, List.nil_append, List.cons.injEq] at h
    exact ⟨by omega, h.2.2⟩

theorem encodeChar_ne_nil (c : Nat) : encodeChar c ≠ [] := by
  unfold encodeChar; split <;> simp

theorem encode_inj {a b : List Nat} (ha : ∀ c ∈ a, IsScalar c) (hb : ∀ c ∈ b, IsScalar c)
    (h : encodeUtf16 a = encodeUtf16 b) : a = b := by
  induction a generalizing b with
  | nil =>
    cases b with
    | nil => rfl
    | cons d ds =>
      simp only [encodeUtf16, List.flatMap_nil, List.flatMap_cons] at h
      have := congrArg List.length h
      have h0 := encodeChar_ne_nil d
      cases he : encodeChar d with
      | nil => exact absurd he h0
      | cons => rw [he] at this; simp at this
  | cons c cs ih =>
    cases b with
    | nil =>
      simp only [encodeUtf16, List.flatMap_nil, List.flatMap_cons] at h
      have := congrArg List.length h
      have h0 := encodeChar_ne_nil c
      cases he : encodeChar c with
      | nil => exact absurd he h0
      | cons => rw [he] at this; simp at this
    | cons d ds =>
      simp only [encodeUtf16, List.flatMap_cons] at h
      obtain ⟨rfl, h'⟩ := encode_cons_inj (ha c (List.mem_cons_self ..)) (hb d (List.mem_cons_self ..)) h
      rw [ih (fun c h => ha c (List.mem_cons_of_mem _ h)) (fun c h => hb c (List.mem_cons_of_mem _ h)) h']

/-! ## Positions -/

theorem utf8Len_pos (c : Nat) : 0 < utf8Len c := by
  unfold utf8Len; split <;> (try split) <;> (try split) <;> omega

theorem bytes_append (a b : List Nat) : bytes (a ++ b) = bytes a + bytes b := by
  induction a with
  | nil => simp [bytes]
  | cons c cs ih => simp [bytes, ih]; omega

theorem isBoundary_iff (text : List Nat) (o : Nat) :
    isBoundary text o = true ↔ ∃ a b, text = a ++ b ∧ bytes a = o := by
  induction text generalizing o with
  | nil =>
    simp only [isBoundary, beq_iff_eq]
    constructor
    · rintro rfl; exact ⟨[], [], rfl, rfl⟩
    · rintro ⟨a, b, h, hb⟩
      have : a = [] := by simpa using (List.nil_eq_append_iff.1 h).1
      subst this
      exact hb.symm
  | cons c cs ih =>
    simp only [isBoundary, Bool.or_eq_true, beq_iff_eq, Bool.and_eq_true, decide_eq_true_eq, ih]
    constructor
    · rintro (rfl | ⟨h, a, b, rfl, hb⟩)
      · exact ⟨[], c :: cs, rfl, rfl⟩
      · exact ⟨c :: a, b, rfl, by simp [bytes]; omega⟩
    · rintro ⟨a, b, h, hb⟩
      cases a with
      | nil => exact .inl hb.symm
      | cons d a =>
        simp only [List.cons_append, List.cons.injEq] at h
        obtain ⟨rfl, rfl⟩ := h
        simp only [bytes] at hb
        exact .inr ⟨by omega, a, b, rfl, by omega⟩

theorem clampDown_of (text : List Nat) (o p : Nat) (hp : p ≤ o) (hb : isBoundary text p = true)
    (hn : ∀ q, p < q → q ≤ o → isBoundary text q = false) : clampDown text o = p := by
  induction o with
  | zero => have : p = 0 := by omega
            subst this; rfl
  | succ o ih =>
    unfold clampDown
    by_cases h : p = o + 1
    · subst h; rw [if_pos hb]
    · have := hn (o + 1) (by omega) (Nat.le_refl _)
      rw [if_neg (by simp [this])]
      exact ih (by omega) (fun q h1 h2 => hn q h1 (by omega))

theorem dropBytes_append (a b : List Nat) : dropBytes (a ++ b) (bytes a) = some b := by
  induction a with
  | nil => cases b <;> rfl
  | cons c cs ih =>
    have h := utf8Len_pos c
    simp only [List.cons_append, bytes]
    obtain ⟨n, hn⟩ : ∃ n, utf8Len c + bytes cs = n + 1 := ⟨utf8Len c + bytes cs - 1, by omega⟩
    rw [hn, dropBytes, if_pos (by omega), ← hn, Nat.add_sub_cancel_left, ih]

theorem takeBytes_append (a b : List Nat) : takeBytes (a ++ b) (bytes a) = some a := by
  induction a with
  | nil => cases b <;> rfl
  | cons c cs ih =>
    have h := utf8Len_pos c
    simp only [List.cons_append, bytes]
    obtain ⟨n, hn⟩ : ∃ n, utf8Len c + bytes cs = n + 1 := ⟨utf8Len c + bytes cs - 1, by omega⟩
    rw [hn, takeBytes, if_pos (by omega), ← hn, Nat.add_sub_cancel_left, ih]
    rfl

theorem slice_append (a b c : List Nat) : slice (a ++ b ++ c) (bytes a) (bytes (a ++ b)) = some b := by
  unfold slice
  rw [if_neg (by rw [bytes_append]; omega), List.append_assoc, dropBytes_append, bytes_append,
    Nat.add_sub_cancel_left]
  exact takeBytes_append b c

theorem lsf_append (len idx : Nat) (a b : List Nat) :
    lineStartsFrom len idx (a ++ b) =
      lineStartsFrom len idx a ++ lineStartsFrom len (idx + bytes a) b := by
  induction a generalizing idx with
  | nil => simp [lineStartsFrom, bytes]
  | cons c cs ih =>
    simp only [List.cons_append, lineStartsFrom, bytes, ih, Nat.add_assoc]
    split
    · split
      · rfl
      · rfl
    · rfl

theorem lsf_mem (len idx : Nat) (cs : List Nat) (h : idx + bytes cs ≤ len) :
    ∀ x ∈ lineStartsFrom len idx cs, idx < x ∧ x ≤ idx + bytes cs := by
  induction cs generalizing idx with
  | nil => simp [lineStartsFrom]
  | cons c cs ih =>
    have hp := utf8Len_pos c
    simp only [bytes] at h ⊢
    have ih' := ih (idx + utf8Len c) (by omega)
    intro x hx
    simp only [lineStartsFrom] at hx
    have tl : x ∈ lineStartsFrom len (idx + utf8Len c) cs →
        idx < x ∧ x ≤ idx + (utf8Len c + bytes cs) := fun h => by have := ih' x h; omega
    split at hx
    · split at hx
      · rcases List.mem_cons.1 hx with rfl | hx
        · omega
        · exact tl hx
      · exact tl hx
    · exact tl hx

theorem lsf_sorted (len idx : Nat) (cs : List Nat) (h : idx + bytes cs ≤ len) :
    List.Pairwise (fun a b : Nat => a < b) (lineStartsFrom len idx cs) := by
  induction cs generalizing idx with
  | nil => simp [lineStartsFrom]
  | cons c cs ih =>
    have hp := utf8Len_pos c
    simp only [bytes] at h
    have ih' := ih (idx + utf8Len c) (by omega)
    simp only [lineStartsFrom]
    split
    · split
      · refine List.pairwise_cons.2 ⟨fun x hx => ?_, ih'⟩
        have := lsf_mem len (idx + utf8Len c) cs (by omega) x hx
        omega
      · exact ih'
    · exact ih'

theorem lsf_length (len idx : Nat) (cs : List Nat) (h : idx + bytes cs ≤ len)
    (h32 : idx + bytes cs < 2 ^ 32) : (lineStartsFrom len idx cs).length = cs.count 10 := by
  induction cs generalizing idx with
  | nil => rfl
  | cons c cs ih =>
    have hp := utf8Len_pos c
    simp only [bytes] at h h32
    have ih' := ih (idx + utf8Len c) (by omega) (by omega)
    simp only [lineStartsFrom, List.count_cons]
    by_cases hc : c = 10
    · rw [if_pos hc, if_pos (by omega)]
      simp [hc, ← ih']
    · simp [hc, ih']

theorem bsearch_spec (key : Nat) (l : List Nat) (hs : List.Pairwise (fun a b : Nat => a < b) l) :
    ∀ (fuel low high : Nat), high - low ≤ fuel → low ≤ high → high ≤ l.length →
      (∀ j x, j < low → l[j]? = some x → x < key) →
      (∀ j x, high ≤ j → l[j]? = some x → key < x) →
      match bsearch key l fuel low high with
      | .inl i => l[i]? = some key
      | .inr i => i ≤ l.length ∧ (∀ j x, j < i → l[j]? = some x → x < key) ∧
          (∀ j x, i ≤ j → l[j]? = some x → key < x) := by
  have mono : ∀ (i j : Nat) (x y : Nat), i < j → l[i]? = some x → l[j]? = some y → x < y := by
    intro i j x y hij hx hy
    rw [List.getElem?_eq_some_iff] at hx hy
    obtain ⟨h1, rfl⟩ := hx
    obtain ⟨h2, rfl⟩ := hy
    exact List.pairwise_iff_getElem.1 hs i j h1 h2 hij
  intro fuel
  induction fuel with
  | zero =>
    intro low high hf hlh hht hlo hhi
    have : low = high := by omega
    subst this
    exact ⟨hht, hlo, hhi⟩
  | succ fuel ih =>
    intro low high hf hlh hht hlo hhi
    unfold bsearch
    by_cases hl : low < high
    · rw [if_pos hl]
      have hmid : low + (high - low) / 2 < l.length := by omega
      rw [List.getElem?_eq_getElem hmid]
      simp only
      have hgm : l[low + (high - low) / 2]? = some l[low + (high - low) / 2] :=
        List.getElem?_eq_getElem hmid
      by_cases h1 : l[low + (high - low) / 2] < key
      · rw [if_pos h1]
        apply ih _ _ (by omega) (by omega) hht _ hhi
        intro j x hj hx
        rcases Nat.lt_or_eq_of_le (Nat.lt_succ_iff.1 hj) with h | h
        · have := mono j _ x _ h hx hgm; omega
        · subst h; rw [hgm] at hx; cases hx; exact h1
      · rw [if_neg h1]
        by_cases h2 : key < l[low + (high - low) / 2]
        · rw [if_pos h2]
          apply ih _ _ (by omega) (by omega) (by omega) hlo
          intro j x hj hx
          rcases Nat.lt_or_eq_of_le hj with h | h
          · have := mono _ j _ x h hgm hx; omega
          · subst h; rw [hgm] at hx; cases hx; exact h2
        · rw [if_neg h2]
          simp only
          rw [hgm]
          congr 1
          omega
    · rw [if_neg hl]
      have : low = high := by omega
      subst this
      exact ⟨hht, hlo, hhi⟩

theorem lineIndex_split (A B : List Nat) (key : Nat) (hs : List.Pairwise (fun a b : Nat => a < b) (A ++ B)) (hA : A ≠ [])
    (h1 : ∀ x ∈ A, x ≤ key) (h2 : ∀ x ∈ B, key < x) : lineIndex (A ++ B) key = A.length - 1 := by
  have mono : ∀ (i j : Nat) (x y : Nat), i < j → (A ++ B)[i]? = some x → (A ++ B)[j]? = some y → x < y := by
    intro i j x y hij hx hy
    rw [List.getElem?_eq_some_iff] at hx hy
    obtain ⟨h1, rfl⟩ := hx
    obtain ⟨h2, rfl⟩ := hy
    exact List.pairwise_iff_getElem.1 hs i j h1 h2 hij
  have inA : ∀ i x, i < A.length → (A ++ B)[i]? = some x → x ≤ key := by
    intro i x hi hx
    rw [List.getElem?_append_left hi] at hx
    exact h1 x (List.mem_of_getElem? hx)
  have inB : ∀ i x, A.length ≤ i → (A ++ B)[i]? = some x → key < x := by
    intro i x hi hx
    rw [List.getElem?_append_right hi] at hx
    exact h2 x (List.mem_of_getElem? hx)
  have hlen : 0 < A.length := List.length_pos_iff.2 hA
  have sp := bsearch_spec key (A ++ B) hs (A ++ B).length 0 (A ++ B).length (by omega) (by omega)
    (Nat.le_refl _) (fun j x h _ => absurd h (by omega))
    (fun j x h hx => by rw [List.getElem?_eq_none h] at hx; cases hx)
  unfold lineIndex
  cases hb : bsearch key (A ++ B) (A ++ B).length 0 (A ++ B).length with
  | inl i =>
    rw [hb] at sp
    simp only at sp ⊢
    have hi : i < A.length := by
      rcases Nat.lt_or_ge i A.length with h | h
      · exact h
      · have := inB i key h sp; omega
    rcases Nat.lt_or_ge i (A.length - 1) with h | h
    · have hl : A.length - 1 < (A ++ B).length := by simp; omega
      have hg := List.getElem?_eq_getElem hl
      have l1 := mono i (A.length - 1) _ _ h sp hg
      have l2 := inA (A.length - 1) _ (by omega) hg
      omega
    · omega
  | inr i =>
    rw [hb] at sp
    simp only at sp ⊢
    obtain ⟨s1, s2, s3⟩ := sp
    have : i = A.length := by
      rcases Nat.lt_trichotomy i A.length with h | h | h
      · have hg := List.getElem?_eq_getElem (show i < (A ++ B).length by simp; omega)
        have l1 := s3 i _ (Nat.le_refl _) hg
        have l2 := inA i _ h hg
        omega
      · exact h
      · have hg := List.getElem?_eq_getElem (show A.length < (A ++ B).length by omega)
        have l1 := s2 A.length _ h hg
        have l2 := inB A.length _ (Nat.le_refl _) hg
        omega
    omega

theorem takeWhile_split (pre : List Nat) :
    ∃ p0 tl, pre = p0 ++ tl ∧ tl = (pre.reverse.takeWhile (· ≠ 10)).reverse ∧
      (p0 = [] ∨ ∃ q, p0 = q ++ [10]) := by
  refine ⟨(pre.reverse.dropWhile (· ≠ 10)).reverse, (pre.reverse.takeWhile (· ≠ 10)).reverse, ?_, rfl, ?_⟩
  · rw [← List.reverse_append, List.takeWhile_append_dropWhile, List.reverse_reverse]
  · cases h : pre.reverse.dropWhile (· ≠ 10) with
    | nil => left; rfl
    | cons c cs =>
      right
      have hd := List.head_dropWhile_not (p := fun x : Nat => decide (x ≠ 10)) (l := pre.reverse)
        (by rw [h]; simp)
      have : c = 10 := by
        simp only [h, List.head_cons] at hd
        simpa using hd
      subst this
      exact ⟨cs.reverse, by simp⟩

theorem not_mem_takeWhile (l : List Nat) : 10 ∉ l.takeWhile (· ≠ 10) := by
  induction l with
  | nil => simp
  | cons x l ih =>
    rw [List.takeWhile_cons]
    by_cases h : x = 10
    · simp [h]
    · simp only [ne_eq, h, not_false_eq_true, decide_true, if_true, List.mem_cons, not_or]
      exact ⟨fun h' => h h'.symm, ih⟩

theorem tail_no_newline (pre : List Nat) : 10 ∉ (pre.reverse.takeWhile (· ≠ 10)).reverse := by
  rw [List.mem_reverse]
  exact not_mem_takeWhile _

end Verif.Values
