import Verif.PropKey.Lemmas

/-!
# C92: rewritten property keys denote the same properties
-/

namespace Verif.PropKey

section
variable {N E : Type} {J : Nums N} {literal : N → Prop} (T : Xid)

theorem staticKey_key {e : KeyExpr N E} {s : Text} (h : staticKey e = some s) :
    exprKey J e = .name s := by
  cases e with
  | str t => simp only [staticKey, Option.some.injEq] at h; subst h; rfl
  | bool b => cases b <;> simp only [staticKey, Option.some.injEq] at h <;> subst h <;> rfl
  | bigint d => simp only [staticKey, Option.some.injEq] at h; subst h; rfl
  | null => simp only [staticKey, Option.some.injEq] at h; subst h; rfl
  | num x => cases h
  | template ps =>
    simp only [staticKey, templateText_spec] at h
    split at h
    · cases h
    · rename_i hn
      simp only [List.nil_append, Option.some.injEq] at h
      subst h
      simp only [exprKey, if_neg hn]
  | other e => cases h

/-- C92, member expressions: `a[key]` is rewritten to an access of the same property.
Missing: names with backslashes and indices from `2 ^ 53` on, see the `_violated` theorems. -/
theorem C92_member_partial (hJ : Lawful J literal) (e : KeyExpr N E)
    (hp : Plain (exprKey J e)) : memberKey J (simplifyMember T J e).1 = exprKey J e := by
  unfold simplifyMember
  cases hs : staticKey e with
  | none => rfl
  | some s =>
    rw [staticKey_key hs] at hp
    simp only
    split
    · rw [staticKey_key hs]
      simp only [memberKey, stringValue_plain s hp.1]
    · cases hi : index J s with
      | none => rfl
      | some n =>
        obtain ⟨h1, -, -⟩ := index_some hi
        rw [staticKey_key hs]
        simp only [memberKey, exprKey, toStr_small hJ (hp.2 n h1), h1]

/-- C92: what is written after a dot is an identifier name. -/
theorem C92_member_valid_partial (e : KeyExpr N E) (hp : Plain (exprKey J e)) {t : Text}
    (h : (simplifyMember T J e).1 = .dot t) : IsIdent T t := by
  unfold simplifyMember at h
  cases hs : staticKey e with
  | none => rw [hs] at h; cases h
  | some s =>
    rw [staticKey_key hs] at hp
    rw [hs] at h
    simp only at h
    split at h
    · rename_i hn
      cases h
      exact isName_spec hp.1 hn
    · split at h <;> cases h

theorem directOf_key (hJ : Lawful J literal) (s : Text) (hp : Plain (.name s : Denotes N E)) :
    propKey J (directOf T J s : Key N E) = .name s := by
  unfold directOf
  split
  · simp only [propKey, stringValue_plain s hp.1]
  · cases hi : index J s with
    | none => rfl
    | some n =>
      obtain ⟨h1, -, -⟩ := index_some hi
      simp only [propKey, natStr, hJ.lit, toStr_small hJ (hp.2 n h1), h1]

/-- The numbers among the keys are values of literals. -/
def LitKey (literal : N → Prop) : Key N E → Prop
  | .computed (.num x) => literal x
  | _ => True

/-- C92, object literals and patterns: the key denotes the same property.  Missing as above. -/
theorem C92_key_partial (hJ : Lawful J literal) (preserve : Bool) (k : Key N E)
    (hl : LitKey literal k) (hp : Plain (propKey J k)) :
    propKey J (simplifyKey T J preserve k).1 = propKey J k := by
  cases k with
  | direct t s =>
    cases t with
    | name => rfl
    | number => rfl
    | private_ => rfl
    | string =>
      have := directOf_key (E := E) T hJ s hp
      unfold directOf at this
      simp only [simplifyKey]
      split
      · rename_i h; rw [if_pos h] at this; exact this
      · rename_i h
        rw [if_neg h] at this
        cases hi : index J s with
        | none => rfl
        | some n => rw [hi] at this; exact this
    | bigint =>
      simp only [simplifyKey]
      cases hi : index J s with
      | none => rfl
      | some n =>
        obtain ⟨h1, -, -⟩ := index_some hi
        simp only [propKey, natStr, hJ.lit, toStr_small hJ (hp.2 n h1), h1]
  | computed e =>
    cases e with
    | str s =>
      simp only [simplifyKey]
      split
      · rfl
      · exact directOf_key T hJ s hp
    | bool b => cases b <;> simp only [simplifyKey, propKey, exprKey] <;>
        rw [stringValue_plain _ (by decide)] <;> rfl
    | null =>
      simp only [simplifyKey, propKey, exprKey]
      rw [stringValue_plain _ (by decide)]
    | num x => simp only [simplifyKey, propKey, exprKey, hJ.display x hl]
    | other e => rfl
    | bigint d =>
      simp only [simplifyKey]
      cases hi : index J d with
      | none => rfl
      | some n =>
        obtain ⟨h1, -, -⟩ := index_some hi
        simp only [propKey, natStr, hJ.lit, toStr_small hJ (hp.2 n h1), h1, exprKey]
    | template ps =>
      simp only [simplifyKey, templateText_spec]
      by_cases hn : none ∈ ps
      · simp only [if_pos hn]
      · simp only [if_neg hn, List.nil_append]
        simp only [propKey, exprKey, if_neg hn] at hp
        split
        · rfl
        · rw [directOf_key T hJ _ hp]
          simp only [propKey, exprKey, if_neg hn]

/-- C92: in object literals, a property sets the prototype after the rewriting if it did
before. -/
theorem C92_proto_partial (k : Key N E) (hp : Plain (propKey J k)) :
    SetsProto (simplifyKey T J true k).1 ↔ SetsProto k := by
  have key : ∀ s : Text, '\\' ∉ s → s ≠ "__proto__".toList →
      ¬ SetsProto (directOf T J s : Key N E) := by
    intro s hb hs
    unfold directOf
    split
    · simp only [SetsProto, stringValue_plain s hb]
      exact hs
    · cases index J s with
      | none => exact hs
      | some n => exact id
  cases k with
  | direct t s =>
    cases t with
    | name => exact Iff.rfl
    | number => exact Iff.rfl
    | private_ => exact Iff.rfl
    | string =>
      simp only [simplifyKey]
      split
      · simp only [SetsProto, stringValue_plain s hp.1]
      · cases hi : index J s with
        | none => exact Iff.rfl
        | some n =>
          obtain ⟨h1, -, -⟩ := index_some hi
          refine ⟨False.elim, ?_⟩
          intro h
          simp only [SetsProto] at h
          exfalso
          unfold index at hi
          subst h
          simp at hi
    | bigint =>
      simp only [simplifyKey]
      cases index J s <;> exact Iff.rfl
  | computed e =>
    cases e with
    | str s =>
      simp only [simplifyKey]
      split
      · exact Iff.rfl
      · rename_i h
        exact iff_of_false (key s hp.1 (by simpa using h)) id
    | bool b =>
      refine iff_of_false ?_ id
      cases b <;> simp only [simplifyKey, SetsProto] <;>
        rw [stringValue_plain _ (by decide)] <;> decide
    | null =>
      refine iff_of_false ?_ id
      simp only [simplifyKey, SetsProto]
      rw [stringValue_plain _ (by decide)]
      decide
    | num x => exact Iff.rfl
    | other e => exact Iff.rfl
    | bigint d =>
      simp only [simplifyKey]
      cases index J d <;> exact Iff.rfl
    | template ps =>
      simp only [simplifyKey, templateText_spec]
      by_cases hn : none ∈ ps
      · simp only [if_pos hn]
      · simp only [if_neg hn, List.nil_append]
        simp only [propKey, exprKey, if_neg hn] at hp
        split
        · exact Iff.rfl
        · rename_i h
          exact iff_of_false (key _ hp.1 (by simpa using h)) id

/-- The keys that a shorthand can stand for. -/
def Named : Prop_ N E → Prop
  | .keyed (.direct t s) _ => (t = .name ∨ t = .string) ∧ '\\' ∉ s
  | _ => True

/-- C92, shorthands in object literals: the same property, from the same identifier, and the
prototype is set if it was.  Missing: names with escapes. -/
theorem C92_shorthand_partial (p : Prop_ N E) (hn : Named p) :
    propMeaning J (shortProp p).1 = propMeaning J p := by
  unfold shortProp
  split
  · rename_i t s x
    obtain ⟨ht, hb⟩ := hn
    split
    · rfl
    · rename_i hs
      split
      · rename_i hx
        subst hx
        have hv := stringValue_plain x hb
        rcases ht with rfl | rfl <;> simp [propMeaning, propKey, SetsProto, hv] <;> exact hs
      · rfl
  · rfl

/-- C92, shorthands in patterns: the same property and the same target. -/
theorem C92_shorthand_pattern_partial (valid : Text → Bool) (p : Prop_ N E) (hn : Named p) :
    (propMeaning J (shortPat T valid p).1).1 = (propMeaning J p).1 ∧
    (propMeaning J (shortPat T valid p).1).2.2 = (propMeaning J p).2.2 := by
  unfold shortPat
  split
  · rename_i t s x
    obtain ⟨ht, hb⟩ := hn
    split
    · exact ⟨rfl, rfl⟩
    · rename_i hx
      have hx := Decidable.of_not_not hx
      subst hx
      split
      · exact ⟨rfl, rfl⟩
      · split
        · have hv := stringValue_plain x hb
          rcases ht with rfl | rfl <;> simp [propMeaning, propKey, hv]
        · exact ⟨rfl, rfl⟩
  · exact ⟨rfl, rfl⟩
end

/-! ## Doubles that satisfy the laws

The integers among them are enough to show that the hypotheses can be met. -/

theorem parseDec_repr (n : Nat) : parseDec n.repr.toList = n := by
  have h := Nat.ofDigitChars_ten_toDigits (n := n)
  rw [Nat.ofDigitChars_eq_foldl] at h
  rw [Nat.toList_repr]
  unfold parseDec
  refine Eq.trans ?_ h
  congr 1
  funext a c
  rw [Nat.mul_comm]
  rfl

theorem exists_least {P : Nat → Prop} : ∀ n, P n → ∃ k, P k ∧ ∀ j, P j → k ≤ j := by
  intro n
  induction n using Nat.strongRecOn with
  | _ n ih =>
    intro h
    by_cases hs : ∃ j, j < n ∧ P j
    · obtain ⟨j, h1, h2⟩ := hs
      exact ih j h1 h2
    · refine ⟨n, h, fun j hj => ?_⟩
      by_cases hlt : j < n
      · exact absurd ⟨j, hlt, hj⟩ hs
      · omega

theorem Digits.mono {j k v : Nat} (h : Digits j v) (hjk : j ≤ k) : Digits k v := by
  obtain ⟨s, e, h1, h2⟩ := h
  exact ⟨s, e, h1, Nat.lt_of_lt_of_le h2 (Nat.pow_le_pow_right (by decide) hjk)⟩

theorem exists_shortest (n : Nat) : ∃ v, Shortest (roundNat n) v := by
  obtain ⟨k, ⟨v, h1, h2⟩, h3⟩ := exists_least
    (P := fun k => ∃ v, roundNat v = roundNat n ∧ Digits k v) n
    ⟨n, rfl, n, 0, by simp, Nat.lt_pow_self (by decide)⟩
  exact ⟨v, h1, fun j w hw hd => h2.mono (h3 j ⟨w, hw, hd⟩)⟩

open Classical in
/-- Integers as doubles. -/
noncomputable def ieee : Nums Nat where
  ofNat := roundNat
  asU64 x := min x (2 ^ 64 - 1)
  toStr x := if h : ∃ v, Shortest x v then natStr h.choose else []
  lit s := roundNat (parseDec s)
  display := natStr

theorem ieee_lawful : Lawful ieee (fun x => roundNat x = x) where
  toStr n _ := by
    have h := exists_shortest n
    refine ⟨h.choose, h.choose_spec, ?_⟩
    simp only [ieee, dif_pos h, natStr]
  asU64 _ := rfl
  lit n := by simp only [ieee, parseDec_repr]
  display x hx := by simp only [ieee, natStr, parseDec_repr, hx]

/-- ASCII only. -/
def ascii : Xid := ⟨fun _ => false, fun _ => false⟩

example : (simplifyMember ascii ieee (.str "ab".toList : KeyExpr Nat Unit)).1
    = .dot "ab".toList := by
  with_unfolding_all rfl

example : Plain (exprKey ieee (.str "ab".toList : KeyExpr Nat Unit)) := by
  refine ⟨by decide, fun n h => ?_⟩
  have := congrArg parseDec h
  rw [parseDec_repr] at this
  rw [← this]
  decide

theorem index_ieee {n : Nat} (h0 : n.repr.toList.head? ≠ some '0') (h1 : n < 2 ^ 64)
    (hd : n.repr.toList.all (fun c => '0' ≤ c && c ≤ '9') = true) (hr : roundNat n = n) :
    index ieee n.repr.toList = some n := by
  unfold index
  rw [parseDec_repr]
  have e : n.repr.toList.isEmpty = false := by
    rw [Nat.toList_repr]
    cases h : Nat.toDigits 10 n with
    | nil => exact absurd h Nat.toDigits_ne_nil
    | cons _ _ => rfl
  have a : ieee.asU64 (ieee.ofNat n) = n := by
    simp only [ieee, hr]; omega
  rw [if_neg (by rw [e]; decide), if_neg (by simp [-Nat.toList_repr, h0]), if_neg (by rw [hd]; decide), if_neg (by omega),
    if_neg (by simp [natStr]), if_neg (by rw [a]; simp)]

/-- `a["10"]` becomes `a[10]`, with the same key. -/
example : (simplifyMember ascii ieee (.str "10".toList : KeyExpr Nat Unit)).1
    = .computed (.num 10) := by
  have : index ieee (10 : Nat).repr.toList = some 10 :=
    index_ieee (by decide) (by decide) (by decide) (by decide)
  have e : "10".toList = (10 : Nat).repr.toList := by decide
  unfold simplifyMember
  simp only [staticKey]
  rw [if_neg (by decide), e, this]
  decide

/-- `{["ab"]: ab}` becomes `{ab: ab}`, and that `{ab}`. -/
example : (simplifyKey ascii ieee true (.computed (.str "ab".toList) : Key Nat Unit)).1
      = .direct .name "ab".toList ∧
    Named (.keyed (.direct .name "ab".toList) (some "ab".toList) : Prop_ Nat Unit) ∧
    (shortProp (.keyed (.direct .name "ab".toList) (some "ab".toList) : Prop_ Nat Unit)).1
      = .short "ab".toList :=
  ⟨by with_unfolding_all rfl, ⟨Or.inl rfl, by decide⟩, by with_unfolding_all rfl⟩

/-- `{["__proto__"]: v}` is kept. -/
example : (simplifyKey ascii ieee true (.computed (.str "__proto__".toList) : Key Nat Unit)).1
    = .computed (.str "__proto__".toList) := by with_unfolding_all rfl

example : LitKey (fun x => roundNat x = x) (.computed (.num 7) : Key Nat Unit) := by
  show roundNat 7 = 7
  decide +kernel

/-! ## Where the minifier is wrong -/

theorem big_round : roundNat 36028797018963984 = 36028797018963984 ∧
    roundNat 36028797018963980 = 36028797018963984 := by
  decide +kernel

/-- `a["36028797018963984"]` becomes `a[36028797018963984]`.  The number is a double, which the
minifier checks, but JavaScript prints it with 16 digits, so the key is another one. -/
theorem C92_large_index_violated {N : Type} {J : Nums N} {literal : N → Prop}
    (hJ : Lawful J literal) :
    (simplifyMember ascii J (.str "36028797018963984".toList : KeyExpr N Unit)).1
      = .computed (.num (J.ofNat 36028797018963984)) ∧
    memberKey J (simplifyMember ascii J (.str "36028797018963984".toList : KeyExpr N Unit)).1
      ≠ exprKey J (.str "36028797018963984".toList) := by
  have e : "36028797018963984".toList = (36028797018963984 : Nat).repr.toList := by decide +kernel
  have hi : index J "36028797018963984".toList = some 36028797018963984 := by
    unfold index
    have hp : parseDec "36028797018963984".toList = 36028797018963984 := by decide +kernel
    have ha : J.asU64 (J.ofNat 36028797018963984) = 36028797018963984 := by
      rw [hJ.asU64, big_round.1]; decide
    rw [hp, ha]
    decide +kernel
  have h1 : (simplifyMember ascii J (.str "36028797018963984".toList : KeyExpr N Unit)).1
      = .computed (.num (J.ofNat 36028797018963984)) := by
    unfold simplifyMember
    simp only [staticKey]
    rw [if_neg (by decide +kernel), hi]
  refine ⟨h1, ?_⟩
  rw [h1]
  simp only [memberKey, exprKey]
  intro h
  injection h with h
  obtain ⟨v, ⟨hv1, hv2⟩, hv⟩ := hJ.toStr 36028797018963984 (by decide)
  rw [hv, e] at h
  have hve : v = 36028797018963984 := by
    have := congrArg parseDec h
    rwa [parseDec_repr, parseDec_repr] at this
  subst hve
  obtain ⟨s, k, hs, hlt⟩ := hv2 16 36028797018963980
    (by rw [big_round.1, big_round.2]) ⟨3602879701896398, 1, by decide, by decide⟩
  cases k with
  | zero => omega
  | succ k =>
    rw [Nat.pow_succ, ← Nat.mul_assoc] at hs
    omega

/-- The string `\\u0061`, of six characters, is taken for an identifier with an escape:
`a["\\\\u0061"]` becomes `a.\\u0061`, which is `a.a`. -/
theorem C92_escape_violated {N : Type} (J : Nums N) :
    (simplifyMember ascii J (.str "\\u0061".toList : KeyExpr N Unit)).1 = .dot "\\u0061".toList ∧
    memberKey J (simplifyMember ascii J (.str "\\u0061".toList : KeyExpr N Unit)).1
      = .name "a".toList ∧
    exprKey J (.str "\\u0061".toList : KeyExpr N Unit) = .name "\\u0061".toList := by
  have h : (simplifyMember ascii J (.str "\\u0061".toList : KeyExpr N Unit)).1
      = .dot "\\u0061".toList := by
    unfold simplifyMember
    simp only [staticKey]
    rw [if_pos (by decide +kernel)]
  refine ⟨h, ?_, rfl⟩
  rw [h]
  simp only [memberKey]
  congr 1
  decide +kernel

/-- `{\\u005f_proto__: \\u005f_proto__}` sets the prototype; the shorthand it becomes does not. -/
theorem C92_proto_escape_violated {N : Type} :
    let k : Key N Unit := .direct .name "\\u005f_proto__".toList
    (shortProp (.keyed k (some "\\u005f_proto__".toList))).1 = .short "\\u005f_proto__".toList ∧
    SetsProto k := by
  refine ⟨?_, ?_⟩
  · unfold shortProp
    simp only
    rw [if_neg (by decide +kernel)]
    rfl
  · simp only [SetsProto]
    decide +kernel

end Verif.PropKey
