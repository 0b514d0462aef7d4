import Verif.Values.Lemmas
/-!
# BigInts, strings and positions: theorems (C18, C19, C20)
-/

namespace Verif.Values

/-! ## C18: BigInt arithmetic is exact or an explicit error -/

/-- **C18, addition.** For well-formed operands, addition returns exactly when the sum is below `2^128`
in absolute value, and then the result is well-formed and is the sum. -/
theorem C18_add_exact {a b : Big} (ha : a.WF) (hb : b.WF) :
    (∀ c, a.checkedAdd b = some c → c.WF ∧ c.val = a.val + b.val) ∧
    (a.checkedAdd b = none ↔ 2 ^ 128 ≤ (a.val + b.val).natAbs) := by
  have h := add_spec ha hb
  cases hr : a.checkedAdd b with
  | none =>
    rw [hr] at h
    exact ⟨fun c hc => (by cases hc), by simpa using h⟩
  | some c =>
    rw [hr] at h
    refine ⟨fun c' hc => (by cases hc; exact h), ?_⟩
    simp only [reduceCtorEq, false_iff]
    rw [← h.2]
    have := h.1.1
    unfold Big.val
    split <;> omega

/-- **C18, multiplication.** As for addition. -/
theorem C18_mul_exact {a b : Big} (ha : a.WF) (hb : b.WF) :
    (∀ c, a.checkedMul b = some c → c.WF ∧ c.val = a.val * b.val) ∧
    (a.checkedMul b = none ↔ 2 ^ 128 ≤ (a.val * b.val).natAbs) := by
  have h := mul_spec ha hb
  cases hr : a.checkedMul b with
  | none =>
    rw [hr] at h
    exact ⟨fun c hc => (by cases hc), by simpa using h⟩
  | some c =>
    rw [hr] at h
    refine ⟨fun c' hc => (by cases hc; exact h), ?_⟩
    simp only [reduceCtorEq, false_iff]
    rw [← h.2]
    have := h.1.1
    unfold Big.val
    split <;> omega

/-- **C18, negation** is exact. -/
theorem C18_negate_exact {a : Big} (ha : a.WF) : a.negate.WF ∧ a.negate.val = -a.val :=
  ⟨wf_neg ha, val_neg a⟩

/-- **C18, one representation.** Two well-formed BigInts (and in particular two zeros) are equal exactly
when they stand for the same integer. -/
theorem C18_canonical {a b : Big} (ha : a.WF) (hb : b.WF) : a = b ↔ a.val = b.val :=
  ⟨fun h => by rw [h], val_inj ha hb⟩

/-- **C18, decimal conversion.** The decimal string of a well-formed BigInt is an optional `-` and a
digit string without leading zero that denotes its absolute value; the sign is there exactly for
negative integers; and reading the digits back gives the absolute value. -/
theorem C18_decimal {a : Big} (ha : a.WF) :
    ∃ ds, a.toDecimal = (if a.val < 0 then 45 :: ds else ds) ∧ IsDigits ds ∧
      decimalValue ds = a.val.natAbs ∧ (a.val ≠ 0 → ds.head? ≠ some 48) ∧ (a.val = 0 → ds = [48]) ∧
      evalLit ds = some { negative := false, magnitude := a.val.natAbs } := by
  have habs : a.val.natAbs = a.magnitude := by
    unfold Big.val; split <;> omega
  have hz : a.val = 0 ↔ a.magnitude = 0 := by
    unfold Big.val; split <;> omega
  refine ⟨toDigits a.magnitude, ?_, toDigits_digits _, ?_, ?_, ?_, ?_⟩
  · unfold Big.toDecimal
    rw [wf_isNegative ha]
    have h2 := ha.2
    cases hn : a.negative
    · have : ¬ a.val < 0 := by unfold Big.val; rw [hn]; simp
      simp [this]
    · have : a.val < 0 := by have := h2 hn; unfold Big.val; rw [hn]; simp; omega
      simp [this]
  · rw [toDigits_value, habs]
  · intro h; exact toDigits_head _ (fun h' => h (hz.2 h'))
  · intro h; rw [hz.1 h]; decide
  · unfold evalLit
    rw [parse_spec (toDigits_digits _), toDigits_value, if_pos ha.1, habs]
    rfl

/-- **C18, literals.** A literal denotes its decimal value, or is a range error exactly when that is not
below `2^128`. -/
theorem C18_literal {ds : List Nat} (h : IsDigits ds) :
    (∀ b, evalLit ds = some b → b.WF ∧ b.val = decimalValue ds) ∧
    (evalLit ds = none ↔ 2 ^ 128 ≤ decimalValue ds) := by
  unfold evalLit
  rw [parse_spec h]
  by_cases hl : decimalValue ds < 2 ^ 128
  · rw [if_pos hl]
    refine ⟨fun b hb => ?_, ?_⟩
    · cases hb; exact ⟨⟨hl, by simp [Big.fromU]⟩, by simp [Big.fromU, Big.val]⟩
    · simp only [Option.map_some, reduceCtorEq, false_iff]; omega
  · rw [if_neg hl]
    exact ⟨fun b hb => (by simp at hb), by simpa using hl⟩

theorem some_iff {o : Option Big} {n : Nat} (h : o = none ↔ 2 ^ 128 ≤ n) :
    n < 2 ^ 128 ↔ ∃ b, o = some b := by
  cases o with
  | none => simp only [true_iff] at h; simp only [reduceCtorEq, exists_false, iff_false]; omega
  | some b => simp only [reduceCtorEq, false_iff] at h; exact ⟨fun _ => ⟨b, rfl⟩, fun _ => by omega⟩

/-- **C18, whole programs.** An arithmetic expression over digit-string literals evaluates to a BigInt
exactly when the exact value of every subexpression is below `2^128` in absolute value; the result is
then the exact integer, in its only representation. -/
theorem C18_programs (e : BigExpr) (h : e.LitsOK) :
    (e.Fits ↔ ∃ b, e.eval = some b) ∧ ∀ b, e.eval = some b → b.WF ∧ b.val = e.exact := by
  have one : (Big.fromU 1).WF ∧ (Big.fromU 1).val = 1 :=
    ⟨⟨by decide, by decide⟩, rfl⟩
  have mone : (Big.negate (.fromU 1)).WF ∧ (Big.negate (.fromU 1)).val = -1 :=
    ⟨⟨by decide, by decide⟩, rfl⟩
  induction e with
  | lit ds =>
    have hl := C18_literal (ds := ds) h
    refine ⟨?_, hl.1⟩
    simp only [BigExpr.Fits, BigExpr.eval]
    cases hv : evalLit ds with
    | none => have := hl.2.1 hv; simp; omega
    | some b =>
      have h2 := hl.2
      rw [hv] at h2
      simp only [reduceCtorEq, false_iff] at h2
      simp; omega
  | neg e ih =>
    obtain ⟨i1, i2⟩ := ih h
    simp only [BigExpr.Fits, BigExpr.eval, BigExpr.exact]
    cases hv : e.eval with
    | none => rw [hv] at i1; simpa using i1
    | some a =>
      rw [hv] at i1
      have := i2 a hv
      refine ⟨by simpa using i1, fun b hb => ?_⟩
      cases hb
      have n := C18_negate_exact this.1
      exact ⟨n.1, by rw [n.2, this.2]⟩
  | add x y ihx ihy =>
    obtain ⟨x1, x2⟩ := ihx h.1
    obtain ⟨y1, y2⟩ := ihy h.2
    simp only [BigExpr.Fits, BigExpr.eval, BigExpr.exact]
    cases hx : x.eval with
    | none => rw [hx] at x1; simp at x1 ⊢; exact fun h => absurd h x1
    | some a =>
      cases hy : y.eval with
      | none => rw [hy] at y1; simp at y1 ⊢; exact fun _ h => absurd h y1
      | some b =>
        rw [hx] at x1; rw [hy] at y1
        obtain ⟨wa, va⟩ := x2 a hx
        obtain ⟨wb, vb⟩ := y2 b hy
        have key := C18_add_exact wa wb
        rw [va, vb] at key
        refine ⟨?_, fun c hc => key.1 c hc⟩
        have k2 := key.2
        have fx : x.Fits := x1.2 ⟨a, rfl⟩
        have fy : y.Fits := y1.2 ⟨b, rfl⟩
        rw [← some_iff k2]
        exact ⟨fun h => h.2.2, fun h => ⟨fx, fy, h⟩⟩
  | mul x y ihx ihy =>
    obtain ⟨x1, x2⟩ := ihx h.1
    obtain ⟨y1, y2⟩ := ihy h.2
    simp only [BigExpr.Fits, BigExpr.eval, BigExpr.exact]
    cases hx : x.eval with
    | none => rw [hx] at x1; simp at x1 ⊢; exact fun h => absurd h x1
    | some a =>
      cases hy : y.eval with
      | none => rw [hy] at y1; simp at y1 ⊢; exact fun _ h => absurd h y1
      | some b =>
        rw [hx] at x1; rw [hy] at y1
        obtain ⟨wa, va⟩ := x2 a hx
        obtain ⟨wb, vb⟩ := y2 b hy
        have key := C18_mul_exact wa wb
        rw [va, vb] at key
        refine ⟨?_, fun c hc => key.1 c hc⟩
        have k2 := key.2
        have fx : x.Fits := x1.2 ⟨a, rfl⟩
        have fy : y.Fits := y1.2 ⟨b, rfl⟩
        rw [← some_iff k2]
        exact ⟨fun h => h.2.2, fun h => ⟨fx, fy, h⟩⟩
  | inc e ih =>
    obtain ⟨i1, i2⟩ := ih h
    simp only [BigExpr.Fits, BigExpr.eval, BigExpr.exact]
    cases hv : e.eval with
    | none => rw [hv] at i1; simp at i1 ⊢; exact fun h => absurd h i1
    | some a =>
      rw [hv] at i1
      obtain ⟨wa, va⟩ := i2 a hv
      have key := C18_add_exact wa one.1
      rw [va, one.2] at key
      refine ⟨?_, fun c hc => key.1 c hc⟩
      have k2 := key.2
      have fe : e.Fits := i1.2 ⟨a, rfl⟩
      simp only [fe, true_and]
      exact some_iff k2
  | dec e ih =>
    obtain ⟨i1, i2⟩ := ih h
    simp only [BigExpr.Fits, BigExpr.eval, BigExpr.exact]
    cases hv : e.eval with
    | none => rw [hv] at i1; simp at i1 ⊢; exact fun h => absurd h i1
    | some a =>
      rw [hv] at i1
      obtain ⟨wa, va⟩ := i2 a hv
      have key := C18_add_exact wa mone.1
      rw [va, mone.2] at key
      refine ⟨?_, fun c hc => ⟨(key.1 c hc).1, by rw [(key.1 c hc).2]; rfl⟩⟩
      have k2 := key.2
      have fe : e.Fits := i1.2 ⟨a, rfl⟩
      simp only [fe, true_and]
      exact some_iff k2

/-- Non-vacuity: `-7 * 3 + 5 = -16`, and `2^127 + 2^127` is a range error. -/
example : (BigExpr.add (.mul (.neg (.lit [55])) (.lit [51])) (.lit [53])).eval =
      some { negative := true, magnitude := 16 } ∧
    Big.toDecimal { negative := true, magnitude := 16 } = [45, 49, 54] ∧
    Big.checkedAdd (.fromU (2 ^ 127)) (.fromU (2 ^ 127)) = none := by decide +kernel

/-! ## C19: strings -/

/-- **C19, order.** The comparison of JS strings is lexicographic comparison of their code units. -/
theorem C19_order (a b : JsString) :
    (a.cmp b = .lt ↔ LexLt a.units b.units) ∧ (a.cmp b = .eq ↔ a.units = b.units) ∧
    (a.cmp b = .gt ↔ LexLt b.units a.units) := by
  refine ⟨cmpSlice_lt _ _, cmpSlice_eq _ _, ?_⟩
  rw [← cmpSlice_lt, ← cmpSlice_swap a.units b.units]
  unfold JsString.cmp
  cases cmpSlice a.units b.units <;> simp [Ordering.swap]

/-- **C19, total order.** Comparing in the other direction swaps the result, and "less" is
transitive. -/
theorem C19_total_order (a b c : JsString) :
    b.cmp a = (a.cmp b).swap ∧ a.cmp a = .eq ∧ (a.cmp b = .lt → b.cmp c = .lt → a.cmp c = .lt) :=
  ⟨(cmpSlice_swap _ _).symm, (cmpSlice_eq _ _).2 rfl, cmpSlice_trans⟩

/-- **C19, equality and hash.** Strings made by the API are equal (as `==`, as the order sees it, and as
objects) exactly when their code units are, and equal strings carry equal hashes. -/
theorem C19_equality (x y : List Nat) :
    ((JsString.ofUnits x).eq (JsString.ofUnits y) = true ↔ x = y) ∧
    ((JsString.ofUnits x).cmp (JsString.ofUnits y) = .eq ↔ x = y) ∧
    ((JsString.ofUnits x).eq (JsString.ofUnits y) = true →
      (JsString.ofUnits x).hash = (JsString.ofUnits y).hash) := by
  refine ⟨by simp [JsString.eq, JsString.ofUnits], cmpSlice_eq _ _, ?_⟩
  intro h
  have : x = y := by simpa [JsString.eq, JsString.ofUnits] using h
  rw [this]

/-- **C19, host strings.** The order used for host strings (Rust strings, sequences of Unicode scalar
values) is the lexicographic order of their UTF-16 encodings, and says "equal" exactly for equal
strings. -/
theorem C19_host_order (a b : List Nat) :
    (cmpUtf16 a b = .lt ↔ LexLt (encodeUtf16 a) (encodeUtf16 b)) ∧
    (cmpUtf16 a b = .gt ↔ LexLt (encodeUtf16 b) (encodeUtf16 a)) ∧
    ((∀ c ∈ a, IsScalar c) → (∀ c ∈ b, IsScalar c) → (cmpUtf16 a b = .eq ↔ a = b)) := by
  unfold cmpUtf16
  rw [cmpIter_eq]
  refine ⟨cmpSlice_lt _ _, ?_, fun ha hb => ?_⟩
  · rw [← cmpSlice_lt, ← cmpSlice_swap (encodeUtf16 a)]
    cases cmpSlice (encodeUtf16 a) (encodeUtf16 b) <;> simp [Ordering.swap]
  · rw [cmpSlice_eq]
    exact ⟨encode_inj ha hb, fun h => by rw [h]⟩

/-- Non-vacuity, and the difference from code point order: U+10000 sorts before U+FFFF; a lone surrogate
and a prefix compare as units. -/
example : cmpUtf16 [0x10000] [0xFFFF] = .lt ∧
    (JsString.ofUnits [0xD800]).cmp (JsString.ofUnits [0xD800, 1]) = .lt ∧
    (JsString.ofUnits [97, 98]).cmp (JsString.ofUnits [97, 97, 99]) = .gt := by decide +kernel

/-! ## C20: line and column -/

/-- Every offset denotes a position. -/
theorem C20_position_exists (text : List Nat) (offset : Nat) : ∃ pre, Before text offset pre := by
  suffices h : ∀ text : List Nat, ∀ n, ∃ pre rest, text = pre ++ rest ∧ bytes pre ≤ n ∧
      (rest = [] ∨ ∃ c cs, rest = c :: cs ∧ n < bytes pre + utf8Len c) by
    exact h text offset
  intro text
  induction text with
  | nil => intro n; exact ⟨[], [], rfl, by simp [bytes], .inl rfl⟩
  | cons c cs ih =>
    intro n
    by_cases h : utf8Len c ≤ n
    · obtain ⟨pre, rest, rfl, h1, h2⟩ := ih (n - utf8Len c)
      refine ⟨c :: pre, rest, rfl, by simp only [bytes]; omega, ?_⟩
      rcases h2 with h2 | ⟨d, ds, h2, h3⟩
      · exact .inl h2
      · exact .inr ⟨d, ds, h2, by simp only [bytes]; omega⟩
    · exact ⟨[], c :: cs, rfl, by simp [bytes], .inr ⟨c, cs, rfl, by simp only [bytes]; omega⟩⟩

/-- **C20.** The line and column reported for an offset (a `u32`) are those of the position it denotes:
the last character boundary at or before it, or the end of the text. The lookup never panics while the
line and column fit a `u32`. -/
theorem C20_line_col (text : List Nat) (offset : Nat) (h32 : offset < 2 ^ 32) (pre : List Nat)
    (h : Before text offset pre) :
    lineCol text offset =
      if lineOf pre < 2 ^ 32 ∧ colOf pre < 2 ^ 32 then some (lineOf pre, colOf pre) else none := by
  obtain ⟨rest, rfl, hle, hrest⟩ := h
  -- the clamped offset is the end of `pre`
  have hclamp : clampDown (pre ++ rest) (min offset (bytes (pre ++ rest))) = bytes pre := by
    apply clampDown_of
    · rw [bytes_append]; omega
    · exact (isBoundary_iff _ _).2 ⟨pre, rest, rfl, rfl⟩
    · intro q hq1 hq2
      cases hb : isBoundary (pre ++ rest) q with
      | false => rfl
      | true =>
        exfalso
        obtain ⟨a, b, hab, rfl⟩ := (isBoundary_iff _ _).1 hb
        rcases List.append_eq_append_iff.1 hab with ⟨d, rfl, hd⟩ | ⟨d, rfl, hd⟩
        · rcases hrest with rfl | ⟨c, cs, rfl, hc⟩
          · have : d = [] := (List.nil_eq_append_iff.1 hd).1
            subst this
            simp at hq1
          · cases d with
            | nil => simp at hq1
            | cons e d =>
              simp only [List.cons_append, List.cons.injEq] at hd
              obtain ⟨rfl, _⟩ := hd
              rw [bytes_append] at hq2
              simp only [bytes] at hq2
              omega
        · rw [bytes_append] at hq1; omega
  unfold lineCol
  rw [hclamp]
  have hlen : bytes (pre ++ rest) = bytes pre + bytes rest := bytes_append _ _
  -- the line starts split at the position
  have hls : lineStarts (pre ++ rest) =
      (0 :: lineStartsFrom (bytes (pre ++ rest)) 0 pre) ++
        lineStartsFrom (bytes (pre ++ rest)) (bytes pre) rest := by
    unfold lineStarts
    rw [lsf_append, Nat.zero_add]
    rfl
  have hsorted : List.Pairwise (fun a b : Nat => a < b) (lineStarts (pre ++ rest)) := by
    unfold lineStarts
    refine List.pairwise_cons.2 ⟨fun x hx => ?_, lsf_sorted _ _ _ (by omega)⟩
    exact (lsf_mem _ _ _ (by omega) x hx).1
  have hcnt := lsf_length (bytes (pre ++ rest)) 0 pre (by omega) (by omega)
  have hidx : lineIndex (lineStarts (pre ++ rest)) (bytes pre) = pre.count 10 := by
    rw [hls] at hsorted ⊢
    rw [lineIndex_split _ _ _ hsorted (by simp)]
    · simp [hcnt]
    · intro x hx
      rcases List.mem_cons.1 hx with rfl | hx
      · omega
      · have := (lsf_mem _ _ _ (by omega) x hx).2; omega
    · intro x hx
      exact (lsf_mem _ _ _ (by omega) x hx).1
  -- the start of the last line
  obtain ⟨p0, tl, hsplit, htl, hp0⟩ := takeWhile_split pre
  have hno : 10 ∉ tl := by rw [htl]; exact tail_no_newline pre
  have hcount : pre.count 10 = p0.count 10 := by
    rw [hsplit, List.count_append, List.count_eq_zero.2 hno]; rfl
  have hstart : (lineStarts (pre ++ rest)).getD (pre.count 10)
      (min (bytes (pre ++ rest)) (2 ^ 32 - 1)) = bytes p0 := by
    rw [List.getD_eq_getElem?_getD]
    suffices hs : (lineStarts (pre ++ rest))[pre.count 10]? = some (bytes p0) by rw [hs]; rfl
    rcases hp0 with rfl | ⟨q, rfl⟩
    · rw [hcount]; rfl
    · have hb : bytes (q ++ [10] ++ tl) = bytes q + 1 + bytes tl := by
        rw [bytes_append, bytes_append]; rfl
      rw [← hsplit] at hb
      have hq := lsf_length (bytes (pre ++ rest)) 0 q (by omega) (by omega)
      have h1 : ∀ L, bytes pre ≤ L → lineStartsFrom L 0 pre =
          lineStartsFrom L 0 q ++ (bytes q + 1) :: lineStartsFrom L (bytes q + 1) tl := by
        intro L hL
        rw [hsplit, List.append_assoc, lsf_append, Nat.zero_add, List.singleton_append]
        simp only [lineStartsFrom, if_true]
        rw [if_pos (by omega), Nat.min_eq_left (by omega)]
        rfl
      rw [hls, hcount, List.count_append, h1 _ (by omega)]
      have h2 : List.count 10 [10] = 1 := rfl
      rw [h2, ← hq]
      rw [List.cons_append, List.getElem?_cons_succ, List.append_assoc,
        List.getElem?_append_right (Nat.le_refl _), Nat.sub_self]
      have h3 : bytes (q ++ [10]) = bytes q + 1 := by rw [bytes_append]; rfl
      rw [h3]
      rfl
  unfold lineColAt
  rw [hidx, hstart]
  have hslice : slice (pre ++ rest) (bytes p0) (bytes pre) = some tl := by
    rw [hsplit]; exact slice_append p0 tl rest
  rw [hslice]
  have hcol : tl.length = (pre.reverse.takeWhile (· ≠ 10)).length := by rw [htl, List.length_reverse]
  simp only [lineOf, colOf, ← hcol]
  rw [Nat.add_comm 1, Nat.add_comm 1]

/-- Non-vacuity: in `"a\né\nb"` offset 3 is inside `é` and is reported as 2:1; offset 5 is 3:1; an offset
past the end is 3:2. -/
example : lineCol [97, 10, 233, 10, 98] 3 = some (2, 1) ∧ lineCol [97, 10, 233, 10, 98] 5 = some (3, 1) ∧
    lineCol [97, 10, 233, 10, 98] 99 = some (3, 2) ∧ Before [97, 10, 233, 10, 98] 3 [97, 10] := by
  refine ⟨by decide +kernel, by decide +kernel, by decide +kernel, [233, 10, 98], rfl, by decide, .inr ⟨233, [10, 98], rfl, by decide⟩⟩

end Verif.Values
