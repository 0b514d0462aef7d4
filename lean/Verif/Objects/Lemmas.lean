import Verif.Objects.Spec

namespace Verif.Objects

/-! ## Numerals -/

theorem numeral_small {n : Nat} (h : n < 10) : numeral n = [48 + n] := by
  rw [numeral]; simp [h]

theorem numeral_big {n : Nat} (h : ¬ n < 10) : numeral n = numeral (n / 10) ++ [48 + n % 10] := by
  rw [numeral]; simp [h]

/-- Value of a digit string read from the left. -/
def readFrom (n : Nat) (us : Units) : Nat := us.foldl (fun n u => n * 10 + (u - 48)) n

def Digits (us : Units) : Prop := ∀ u ∈ us, 48 ≤ u ∧ u ≤ 57

theorem readFrom_ge (us : Units) : ∀ n, n ≤ readFrom n us := by
  induction us with
  | nil => intro n; exact Nat.le_refl _
  | cons u us ih => intro n; have := ih (n * 10 + (u - 48)); simp only [readFrom, List.foldl_cons] at *; omega

theorem readFrom_append (us : Units) (u : Nat) : ∀ n, readFrom n (us ++ [u]) = readFrom n us * 10 + (u - 48) := by
  induction us with
  | nil => intro n; rfl
  | cons v us ih => intro n; simp only [readFrom, List.cons_append, List.foldl_cons] at *; exact ih _

theorem indexLoop_eq (us : Units) : ∀ n m, n < 2 ^ 32 →
    (indexLoop n us = some m ↔ Digits us ∧ readFrom n us = m ∧ m < 2 ^ 32) := by
  induction us with
  | nil =>
    intro n m hn
    simp only [indexLoop, Option.some.injEq, readFrom, List.foldl_nil, Digits]
    constructor
    · rintro rfl; exact ⟨by simp, rfl, hn⟩
    · rintro ⟨_, h, _⟩; exact h
  | cons u us ih =>
    intro n m hn
    simp only [indexLoop, readFrom, List.foldl_cons, Digits, List.forall_mem_cons] at ih ⊢
    by_cases hu : 48 ≤ u ∧ u ≤ 57
    · rw [if_pos hu, if_pos (by omega), if_pos (by omega)]
      by_cases hb : n * 10 + (u - 48) > 2 ^ 32 - 1
      · rw [if_pos hb]
        constructor
        · intro h; cases h
        · rintro ⟨_, h, hm⟩
          have := readFrom_ge us (n * 10 + (u - 48))
          simp only [readFrom] at this
          omega
      · rw [if_neg hb, ih _ _ (by omega)]
        constructor
        · rintro ⟨a, b, c⟩; exact ⟨⟨hu, a⟩, b, c⟩
        · rintro ⟨⟨_, a⟩, b, c⟩; exact ⟨a, b, c⟩
    · rw [if_neg hu]
      constructor
      · intro h; cases h
      · rintro ⟨⟨h, _⟩, _⟩; exact absurd h hu

theorem digits_numeral (n : Nat) : Digits (numeral n) := by
  induction n using Nat.strongRecOn with
  | ind n ih =>
    by_cases h : n < 10
    · rw [numeral_small h]; intro u hu; simp at hu; omega
    · rw [numeral_big h]
      intro u hu
      rcases List.mem_append.1 hu with hu | hu
      · exact ih (n / 10) (by omega) u hu
      · simp at hu; omega

theorem readFrom_numeral (n : Nat) : readFrom 0 (numeral n) = n := by
  induction n using Nat.strongRecOn with
  | ind n ih =>
    by_cases h : n < 10
    · rw [numeral_small h]; simp [readFrom]
    · rw [numeral_big h, readFrom_append, ih _ (by omega)]; omega

/-- No leading zero, except for zero itself. -/
theorem numeral_head (n : Nat) : ∃ u us, numeral n = u :: us ∧ (us ≠ [] → u ≠ 48) ∧ (0 < n → u ≠ 48) := by
  induction n using Nat.strongRecOn with
  | ind n ih =>
    by_cases h : n < 10
    · exact ⟨48 + n, [], numeral_small h, by simp, by omega⟩
    · obtain ⟨u, us, he, h1, h2⟩ := ih (n / 10) (by omega)
      refine ⟨u, us ++ [48 + n % 10], by rw [numeral_big h, he]; rfl, fun _ => h2 (by omega), fun _ => h2 (by omega)⟩

theorem readFrom_pos {us : Units} {n : Nat} (h : 0 < n) : 0 < readFrom n us := Nat.lt_of_lt_of_le h (readFrom_ge us n)

/-- A digit string without leading zero is the numeral of its value. -/
theorem numeral_of_digits (us : Units) (hd : Digits us) (hne : us ≠ []) (h0 : 1 < us.length → us.head? ≠ some 48) :
    us = numeral (readFrom 0 us) := by
  induction hl : us.length generalizing us with
  | zero => exact absurd (List.eq_nil_of_length_eq_zero hl) hne
  | succ k ih =>
    obtain ⟨init, u, rfl⟩ : ∃ init u, us = init ++ [u] := ⟨us.dropLast, us.getLast hne, (List.dropLast_concat_getLast hne).symm⟩
    have hu : 48 ≤ u ∧ u ≤ 57 := hd u (by simp)
    rw [readFrom_append]
    by_cases hi : init = []
    · subst hi
      have : numeral (readFrom 0 [] * 10 + (u - 48)) = [48 + (u - 48)] := by
        rw [numeral_small (by simp [readFrom]; omega)]; simp [readFrom]
      rw [this]; simp; omega
    · have hinit := ih init (fun v hv => hd v (by simp [hv])) hi
        (fun hlen => by
          have := h0 (by simp; omega)
          cases init with
          | nil => exact absurd rfl hi
          | cons a t => simpa using this)
        (by simp at hl; exact hl)
      have hpos : 0 < readFrom 0 init := by
        cases init with
        | nil => exact absurd rfl hi
        | cons a t =>
          have ha := hd a (by simp)
          have hne0 : a ≠ 48 := by
            have := h0 (by simp)
            simpa using this
          simp only [readFrom, List.foldl_cons]
          exact readFrom_pos (by omega)
      rw [numeral_big (by omega)]
      rw [show (readFrom 0 init * 10 + (u - 48)) / 10 = readFrom 0 init by omega, ← hinit]
      congr 2
      omega

theorem stringToArrayIndex_eq (us : Units) (i : Nat) :
    stringToArrayIndex us = some i ↔ us = numeral i ∧ i ≤ 2 ^ 32 - 2 := by
  constructor
  · intro h
    unfold stringToArrayIndex at h
    split at h
    · cases h
    · rename_i u vs
      split at h
      · cases h
      · rename_i h0
        split at h
        · cases h
        · rename_i n hn
          split at h
          · cases h
          · rename_i hne
            cases h
            obtain ⟨hd, hv, hlt⟩ := (indexLoop_eq _ 0 _ (by omega)).1 hn
            refine ⟨?_, by omega⟩
            rw [← hv]
            apply numeral_of_digits _ hd (by simp)
            intro hlen hh
            apply h0
            simp at hh
            refine ⟨?_, hh⟩
            rintro rfl
            simp at hlen
  · rintro ⟨rfl, hle⟩
    obtain ⟨u, us, he, h1, _⟩ := numeral_head i
    have hd := digits_numeral i
    have hv := readFrom_numeral i
    have hl := (indexLoop_eq (numeral i) 0 i (by omega)).2 ⟨hd, hv, by omega⟩
    rw [he] at hl ⊢
    simp only [stringToArrayIndex]
    rw [if_neg (by rintro ⟨a, b⟩; exact h1 a b), hl]
    simp only
    rw [if_neg (by omega)]

theorem numeral_inj {i j : Nat} (h : numeral i = numeral j) : i = j := by
  have := readFrom_numeral i
  rw [h, readFrom_numeral] at this
  exact this.symm

theorem arrayIndex_iff (k : Key) (i : Nat) : k.arrayIndex = some i ↔ IsArrayIndex k i := by
  cases k with
  | sym _ => simp [Key.arrayIndex, IsArrayIndex]
  | str s => simp [Key.arrayIndex, IsArrayIndex, stringToArrayIndex_eq]

theorem isLength_iff (k : Key) : k.isLength = true ↔ k = .str lengthUnits := by
  cases k <;> simp [Key.isLength]

theorem arrayIndex_length : Key.arrayIndex (.str lengthUnits) = none := by decide

theorem arrayIndex_le {k : Key} {i : Nat} (h : k.arrayIndex = some i) : i ≤ 2 ^ 32 - 2 :=
  ((arrayIndex_iff k i).1 h).2

theorem arrayIndex_inj {k k' : Key} {i : Nat} (h : k.arrayIndex = some i) (h' : k'.arrayIndex = some i) : k = k' := by
  rw [((arrayIndex_iff k i).1 h).1, ((arrayIndex_iff k' i).1 h').1]

/-! ## Property lists -/

theorem lookup_eq_none {k : Key} {es : List Entry} : lookup k es = none ↔ ∀ e ∈ es, e.key ≠ k := by
  induction es with
  | nil => simp [lookup]
  | cons e es ih =>
    simp only [lookup, List.forall_mem_cons]
    split
    · simp_all
    · simp_all

theorem lookup_mem {k : Key} {es : List Entry} {d : Desc} (h : lookup k es = some d) : ⟨k, d⟩ ∈ es := by
  induction es with
  | nil => cases h
  | cons e es ih =>
    simp only [lookup] at h
    split at h
    · rename_i he
      cases h; subst he; exact List.mem_cons_self ..
    · exact List.mem_cons_of_mem _ (ih h)

theorem position_none {k : Key} {es : List Entry} : position k es = none ↔ lookup k es = none := by
  induction es with
  | nil => simp [lookup, position]
  | cons e es ih =>
    simp only [lookup, position]
    split
    · simp
    · simp [ih]

theorem lookup_setDescAt {k k' : Key} {es : List Entry} {i : Nat} {d : Desc} (h : position k es = some i) :
    lookup k' (setDescAt es i d) = if k' = k then some d else lookup k' es := by
  induction es generalizing i with
  | nil => cases h
  | cons e es ih =>
    simp only [position] at h
    split at h
    · rename_i he
      cases h
      simp only [setDescAt, lookup, he]
      by_cases hk : k = k'
      · simp [hk]
      · rw [if_neg hk, if_neg (fun h => hk h.symm), if_neg hk]
    · rename_i he
      cases hp : position k es with
      | none => rw [hp] at h; cases h
      | some j =>
        rw [hp] at h
        cases h
        simp only [setDescAt, lookup]
        split
        · rename_i hk
          rw [if_neg]
          rintro rfl; exact he hk
        · exact ih hp

theorem keys_setDescAt (es : List Entry) (i : Nat) (d : Desc) :
    (setDescAt es i d).map Entry.key = es.map Entry.key := by
  induction es generalizing i with
  | nil => cases i <;> rfl
  | cons e es ih =>
    cases i with
    | zero => rfl
    | succ n => simp [setDescAt, ih]

theorem lookup_append {k : Key} {es fs : List Entry} :
    lookup k (es ++ fs) = (lookup k es).or (lookup k fs) := by
  induction es with
  | nil => simp [lookup]
  | cons e es ih =>
    simp only [List.cons_append, lookup]
    split
    · rfl
    · exact ih

/-- The entry list after writing `k := d`. -/
def writeProps (es : List Entry) (k : Key) (d : Desc) : List Entry :=
  match position k es with
  | some i => setDescAt es i d
  | none => es ++ [⟨k, d⟩]

theorem lookup_writeProps (es : List Entry) (k k' : Key) (d : Desc) :
    lookup k' (writeProps es k d) = if k' = k then some d else lookup k' es := by
  unfold writeProps
  split
  · rename_i i hi
    exact lookup_setDescAt hi
  · rename_i hn
    rw [lookup_append]
    have := position_none.1 hn
    simp only [lookup]
    by_cases h : k = k'
    · subst h; simp [this]
    · rw [if_neg h, if_neg (fun e => h e.symm)]; cases lookup k' es <;> rfl

/-- Keys of the list after a write: unchanged, or one new key at the end. -/
theorem keys_writeProps (es : List Entry) (k : Key) (d : Desc) :
    (writeProps es k d).map Entry.key =
      if lookup k es = none then es.map Entry.key ++ [k] else es.map Entry.key := by
  unfold writeProps
  split
  · rename_i i hi
    rw [keys_setDescAt, if_neg]
    intro h
    rw [position_none.2 h] at hi
    cases hi
  · rename_i hn
    rw [if_pos (position_none.1 hn)]
    simp

theorem lookup_isSome_of_mem {e : Entry} {es : List Entry} (h : e ∈ es) : ∃ d, lookup e.key es = some d := by
  cases hl : lookup e.key es with
  | some d => exact ⟨d, rfl⟩
  | none => exact absurd rfl (lookup_eq_none.1 hl e h)

theorem nodup_writeProps {es : List Entry} {k : Key} {d : Desc} (h : (es.map Entry.key).Nodup) :
    ((writeProps es k d).map Entry.key).Nodup := by
  rw [keys_writeProps]
  split
  · rename_i hn
    rw [List.nodup_append]
    refine ⟨h, by simp, ?_⟩
    intro a ha b hb
    simp at hb
    subst hb
    obtain ⟨e, he, rfl⟩ := List.mem_map.1 ha
    exact lookup_eq_none.1 hn e he
  · exact h

theorem lookup_removeAt {k k' : Key} {es : List Entry} (h : (es.map Entry.key).Nodup) :
    lookup k' (removeAt k es) = if k' = k then none else lookup k' es := by
  induction es with
  | nil => simp [removeAt, lookup]
  | cons e es ih =>
    simp only [List.map_cons, List.nodup_cons] at h
    simp only [removeAt]
    split
    · rename_i he
      simp only [lookup]
      by_cases hk : k' = k
      · rw [if_pos hk]
        rw [lookup_eq_none]
        intro f hf hfk
        apply h.1
        rw [he, ← hk, ← hfk]
        exact List.mem_map_of_mem hf
      · rw [if_neg hk, if_neg (by rw [he]; exact fun h => hk h.symm)]
    · rename_i he
      simp only [lookup]
      split
      · rename_i hek
        rw [if_neg]
        rintro rfl
        exact he hek
      · exact ih h.2

theorem removeAt_sublist (k : Key) (es : List Entry) : (removeAt k es).Sublist es := by
  induction es with
  | nil => exact List.Sublist.refl _
  | cons e es ih =>
    simp only [removeAt]
    split
    · exact List.sublist_cons_self ..
    · exact ih.cons_cons _

theorem lookup_removeAt_ne {k k' : Key} {es : List Entry} (h : k' ≠ k) :
    lookup k' (removeAt k es) = lookup k' es := by
  induction es with
  | nil => rfl
  | cons e es ih =>
    simp only [removeAt]
    split
    · rename_i he
      simp only [lookup]
      rw [if_neg (by rw [he]; exact fun e => h e.symm)]
    · simp only [lookup, ih]

end Verif.Objects
