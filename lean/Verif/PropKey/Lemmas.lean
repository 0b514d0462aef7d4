import Verif.PropKey.Spec

/-! # Lemmas for C92 -/

namespace Verif.PropKey

theorem stringValue_plain : ∀ s : Text, '\\' ∉ s → stringValue s = s := by
  intro s
  induction s with
  | nil => intro _; rw [stringValue]
  | cons c r ih =>
    intro h
    simp only [List.mem_cons, not_or] at h
    unfold stringValue
    split
    · rename_i e; injection e with e; exact absurd e.symm h.1
    · rename_i e; injection e with e; exact absurd e.symm h.1
    · rename_i e; injection e with e e'; subst e; subst e'; rw [ih h.2]
    · rename_i e; cases e

theorem ascii_cases (P : Char → Prop) (h : ∀ n, n < 128 → P (Char.ofNat n)) (c : Char)
    (hc : c.toNat < 128) : P c := by
  have := h c.toNat hc
  rwa [Char.ofNat_toNat] at this

theorem start_ascii : ∀ n, n < 128 →
    ((Char.ofNat n == '$' || Char.ofNat n == '_' || ('a' ≤ Char.ofNat n && Char.ofNat n ≤ 'z')
      || ('A' ≤ Char.ofNat n && Char.ofNat n ≤ 'Z')) = true → Char.ofNat n ∈ asciiStart) := by
  decide +kernel

theorem cont_ascii : ∀ n, n < 128 →
    ((Char.ofNat n == '$' || Char.ofNat n == '_' || ('0' ≤ Char.ofNat n && Char.ofNat n ≤ '9')
      || ('a' ≤ Char.ofNat n && Char.ofNat n ≤ 'z')
      || ('A' ≤ Char.ofNat n && Char.ofNat n ≤ 'Z')) = true →
      Char.ofNat n ∈ asciiStart ∨ Char.ofNat n ∈ "0123456789".toList) := by
  decide +kernel

theorem start_spec {T : Xid} {c : Char} (h : T.start c = true) : IsStart T c := by
  unfold Xid.start at h
  split at h
  · rename_i hc
    left
    revert h
    exact ascii_cases (fun c => (c == '$' || c == '_' || ('a' ≤ c && c ≤ 'z')
      || ('A' ≤ c && c ≤ 'Z')) = true → c ∈ asciiStart) start_ascii c hc
  · exact Or.inr ⟨by omega, h⟩

theorem cont_spec {T : Xid} {c : Char} (h : T.cont c = true) : IsPart T c := by
  unfold Xid.cont at h
  split at h
  · rename_i hc
    have := ascii_cases (fun c => (c == '$' || c == '_' || ('0' ≤ c && c ≤ '9')
      || ('a' ≤ c && c ≤ 'z') || ('A' ≤ c && c ≤ 'Z')) = true →
        c ∈ asciiStart ∨ c ∈ "0123456789".toList) cont_ascii c hc h
    rcases this with h | h
    · exact Or.inl h
    · exact Or.inr (Or.inl h)
  · refine Or.inr (Or.inr ⟨by omega, ?_⟩)
    simp only [Bool.or_eq_true, beq_iff_eq] at h
    rcases h with (h | h) | h
    · exact Or.inl h
    · subst h; exact Or.inr (Or.inl rfl)
    · subst h; exact Or.inr (Or.inr rfl)

theorem parts_spec {T : Xid} : ∀ n (s : Text), '\\' ∉ s → parts T n s = some [] →
    ∀ d ∈ s, IsPart T d := by
  intro n
  induction n with
  | zero => intro s _ h; simp [parts] at h; simp [h]
  | succ n ih =>
    intro s hs h
    cases s with
    | nil => simp
    | cons c r =>
      simp only [List.mem_cons, not_or] at hs
      have e : parts T (n + 1) (c :: r) = if T.cont c then parts T n r else some (c :: r) := by
        rw [parts]
        intro hc
        exact absurd hc.symm hs.1
      rw [e] at h
      split at h
      · rename_i hc
        intro d hd
        rcases List.mem_cons.mp hd with rfl | hd
        · exact cont_spec hc
        · exact ih _ hs.2 h d hd
      · simp at h

theorem isName_spec {T : Xid} {s : Text} (hs : '\\' ∉ s) (h : isName T s = true) :
    IsIdent T s := by
  unfold isName at h
  simp only [beq_iff_eq] at h
  unfold identifier at h
  split at h
  · cases h
  · simp at hs
  · simp only [List.mem_cons, not_or] at hs
    split at h
    · rename_i hc
      exact ⟨_, _, rfl, start_spec hc, parts_spec _ _ hs.2 h⟩
    · cases h

theorem index_some {N : Type} {J : Nums N} {s : Text} {n : Nat} (h : index J s = some n) :
    s = n.repr.toList ∧ n < 2 ^ 64 ∧ J.asU64 (J.ofNat n) = n := by
  unfold index at h
  split at h
  · cases h
  split at h
  · cases h
  split at h
  · cases h
  split at h
  · cases h
  split at h
  · cases h
  split at h
  · cases h
  · rename_i h1 h2 h3
    injection h with h
    subst h
    refine ⟨?_, by omega, Decidable.of_not_not h3⟩
    exact (Decidable.of_not_not h2).symm

theorem roundNat_ge {m : Nat} (h : 2 ^ 53 ≤ m) : 2 ^ 53 ≤ roundNat m := by
  unfold roundNat
  rw [if_neg (by omega)]
  simp only
  have h0 : m ≠ 0 := by
    rintro rfl
    simp at h
  have h1 : 53 ≤ Nat.log2 m := (Nat.le_log2 h0).mpr h
  have h2 : 2 ^ Nat.log2 m ≤ m := Nat.log2_self_le h0
  generalize he : Nat.log2 m - 52 = e at *
  have h3 : 2 ^ 52 * 2 ^ e ≤ m := by
    rw [← Nat.pow_add, show 52 + e = Nat.log2 m by omega]
    exact h2
  have h4 : 2 ^ 52 ≤ m / 2 ^ e := (Nat.le_div_iff_mul_le (Nat.pow_pos (by decide))).mpr h3
  have h5 : 2 ≤ 2 ^ e := by
    have : 2 ^ 1 ≤ 2 ^ e := Nat.pow_le_pow_right (by decide) (by omega)
    simpa using this
  have h6 : m / 2 ^ e ≤ (if m % 2 ^ e < 2 ^ (e - 1) ∨ m % 2 ^ e = 2 ^ (e - 1) ∧ m / 2 ^ e % 2 = 0
      then m / 2 ^ e else m / 2 ^ e + 1) := by
    split <;> omega
  calc 2 ^ 53 = 2 ^ 52 * 2 := by decide
    _ ≤ _ := Nat.mul_le_mul (Nat.le_trans h4 h6) h5

theorem shortest_small {x v : Nat} (hx : x < 2 ^ 53) (h : Shortest (roundNat x) v) : v = x := by
  have e : roundNat x = x := by unfold roundNat; rw [if_pos hx]
  have h1 := h.1
  rw [e] at h1
  by_cases hv : v < 2 ^ 53
  · unfold roundNat at h1
    rwa [if_pos hv] at h1
  · have := roundNat_ge (m := v) (by omega)
    omega

theorem templateText_spec (ps : List (Option Text)) : ∀ out,
    templateText ps out = if none ∈ ps then none else some (out ++ (ps.filterMap id).flatten) := by
  induction ps with
  | nil => intro out; simp [templateText]
  | cons p ps ih =>
    intro out
    cases p with
    | none => simp [templateText]
    | some s => simp [templateText, ih]

variable {N E : Type} {J : Nums N} {lit : N → Prop}

/-- The key of a small index is its decimal. -/
theorem toStr_small (hJ : Lawful J lit) {n : Nat} (h : n < 2 ^ 53) :
    J.toStr (J.ofNat n) = n.repr.toList := by
  obtain ⟨v, hv, e⟩ := hJ.toStr n (by omega)
  rw [e, shortest_small h hv]

end Verif.PropKey
