import Verif.Paths.Spec

/-!
# Lemmas about paths
-/

namespace Verif.Paths

theorem isSlash_iff (c : Char) : isSlash c = true ↔ Sep c := by
  simp [isSlash, Sep]

theorem isAlpha_iff (c : Char) : isAlpha c = true ↔ Letter c := by
  simp only [isAlpha, Letter, Bool.or_eq_true, Bool.and_eq_true, decide_eq_true_eq, Char.le_def,
    UInt32.le_iff_toNat_le]
  show (97 ≤ c.toNat ∧ c.toNat ≤ 122) ∨ (65 ≤ c.toNat ∧ c.toNat ≤ 90) ↔ _
  omega

theorem lower_eq {c : Char} (h : Letter c) : lower c = small c := by
  have e : ('A' ≤ c ∧ c ≤ 'Z') ↔ (65 ≤ c.toNat ∧ c.toNat ≤ 90) := by
    simp only [Char.le_def, UInt32.le_iff_toNat_le]; exact Iff.rfl
  unfold lower small
  simp only [e]
  unfold Letter at h
  by_cases h1 : c.toNat ≤ 90
  · rw [if_pos ⟨by omega, h1⟩, if_pos h1]
  · rw [if_neg (by omega), if_neg h1]

theorem toNat_ofNat {n : Nat} (h : n < 55296) : (Char.ofNat n).toNat = n := by
  rw [Char.ofNat, dif_pos (Or.inl h)]
  rfl

theorem small_letter {c : Char} (h : Letter c) : Letter (small c) ∧ small (small c) = small c := by
  unfold Letter at *
  by_cases h1 : c.toNat ≤ 90
  · have e : (small c).toNat = c.toNat + 32 := by
      unfold small
      rw [if_pos h1, toNat_ofNat (by omega)]
    refine ⟨by omega, ?_⟩
    rw [small, if_neg (by omega)]
  · have e : small c = c := by rw [small, if_neg h1]
    rw [e]
    exact ⟨h, e⟩

theorem letter_not_sep {c : Char} (h : Letter c) : ¬ Sep c := by
  rintro (rfl | rfl) <;> revert h <;> unfold Letter <;> decide

/-! ## Leading separators -/

theorem skip_spec (s : Text) : ∃ seps, s = seps ++ skipSlashes s ∧ (∀ c ∈ seps, Sep c) ∧
    (∀ c r, skipSlashes s = c :: r → ¬ Sep c) := by
  induction s with
  | nil => exact ⟨[], rfl, by simp, by simp [skipSlashes]⟩
  | cons c r ih =>
    rw [skipSlashes]
    split
    · next h =>
      obtain ⟨seps, h1, h2, h3⟩ := ih
      refine ⟨c :: seps, by rw [List.cons_append, ← h1], ?_, h3⟩
      intro x hx
      rcases List.mem_cons.mp hx with rfl | hx
      · exact (isSlash_iff _).mp h
      · exact h2 _ hx
    · next h =>
      refine ⟨[], rfl, by simp, ?_⟩
      intro x t e
      cases e
      exact fun k => h ((isSlash_iff _).mpr k)

theorem partsOf_ne (s : Text) : partsOf s ≠ [] := by
  cases s with
  | nil => simp [partsOf]
  | cons c r =>
    rw [partsOf]
    split
    · simp
    · split <;> simp

theorem partsOf_sep {c : Char} (h : Sep c) (r : Text) : partsOf (c :: r) = [] :: partsOf r := by
  rw [partsOf, if_pos h]

theorem leads_seps (seps s : Text) (h : ∀ c ∈ seps, Sep c) : leads (seps ++ s) = leads s := by
  induction seps with
  | nil => rfl
  | cons c r ih =>
    rw [← ih fun x hx => h x (by simp [hx])]
    unfold leads
    rw [List.cons_append, partsOf_sep (h c (by simp))]
    rfl

/-! ## The buffer -/

/-- The directories so far. -/
def Clean (dirs : List Text) : Prop := ∀ d ∈ dirs, IsName d

theorem last_name {d : Text} (h : IsName d) (p : Text) : (p ++ d).getLast? ≠ some '/' := by
  obtain ⟨h1, -, -, h4⟩ := h
  have hd : d ≠ [] := h1
  intro e
  rw [List.getLast?_append, List.getLast?_eq_some_getLast hd] at e
  have e : d.getLast hd = '/' := by simpa using e
  exact h4 _ (List.getLast_mem hd) (Or.inl e)

theorem render_concat (stem : Text) (dirs : List Text) (d : Text) :
    render stem (dirs ++ [d]) = stem ++ dirs.flatMap (fun d => '/' :: d) ++ '/' :: d := by
  simp [render]

theorem rfind_none {s : Text} (h : ∀ c ∈ s, c ≠ '/') (i : Nat) (f : Option Nat) :
    rfind s i f = f := by
  induction s generalizing i with
  | nil => rfl
  | cons c r ih =>
    rw [rfind, if_neg (h c (by simp))]
    exact ih (fun x hx => h x (by simp [hx])) _

theorem rfind_append (p s : Text) (h : ∀ c ∈ s, c ≠ '/') (i : Nat) (f : Option Nat) :
    rfind (p ++ '/' :: s) i f = some (i + p.length) := by
  induction p generalizing i f with
  | nil => rw [List.nil_append, rfind, if_pos rfl, rfind_none h]; rfl
  | cons c r ih =>
    rw [List.cons_append, rfind, ih]
    simp only [List.length_cons, Option.some.injEq]; omega

theorem name_no_slash {d : Text} (h : IsName d) : ∀ c ∈ d, c ≠ '/' :=
  fun c hc e => h.2.2.2 c hc (Or.inl e)

theorem pop_spec (stem : Text) {dirs : List Text} (h : Clean dirs) :
    pop (stem.length + 1) (render stem dirs) = render stem dirs.dropLast := by
  rcases List.eq_nil_or_concat dirs with rfl | ⟨ds, d, rfl⟩
  · simp [pop, render]
  · rw [List.concat_eq_append] at h ⊢
    have hd : IsName d := h d (by simp)
    have hn : d ≠ [] := hd.1
    have hl : 0 < d.length := List.length_pos_iff.mpr hn
    rw [render_concat, List.dropLast_concat]
    generalize hp : ds.flatMap (fun d => '/' :: d) = p
    have len : (stem ++ p ++ '/' :: d).length = stem.length + p.length + 1 + d.length := by
      simp; omega
    have last : (stem ++ p ++ '/' :: d).getLast? ≠ some '/' := by
      have := last_name hd (stem ++ p ++ ['/'])
      simpa using this
    rw [pop, if_neg (by omega)]
    simp only [last, and_false, if_false]
    rw [if_neg (by omega), List.take_length, rfind_append _ _ (name_no_slash hd)]
    simp only [Nat.zero_add, List.length_append]
    cases ds with
    | nil =>
      simp only [List.flatMap_nil] at hp
      subst hp
      simp [render, List.take_append, List.take_of_length_le (Nat.le_succ stem.length)]
    | cons a t =>
      have : 0 < p.length := by rw [← hp]; simp
      rw [if_neg (by omega), ← List.length_append, List.take_left]
      simp [render, ← hp]

theorem step_clean {dirs : List Text} {part : Text} (h : Clean dirs) (hp : ∀ c ∈ part, ¬ Sep c) :
    Clean (step dirs part) := by
  unfold step
  split
  · exact h
  · next h1 =>
    split
    · exact fun d hd => h d (List.dropLast_subset _ hd)
    · next h2 =>
      intro d hd
      rcases List.mem_append.mp hd with hd | hd
      · exact h d hd
      · obtain rfl := List.mem_singleton.mp hd
        exact ⟨fun e => h1 (Or.inl e), fun e => h1 (Or.inr e), h2, hp⟩

theorem segment_spec (stem : Text) {dirs : List Text} {part : Text} (h : Clean dirs) :
    segment (stem.length + 1) (render stem dirs) part = render stem (step dirs part) := by
  have e1 : (part.isEmpty || part == ['.']) = true ↔ part = "".toList ∨ part = ".".toList := by
    cases part <;> simp
  unfold segment step
  by_cases h1 : part = "".toList ∨ part = ".".toList
  · rw [if_pos (e1.mpr h1), if_pos h1]
  · rw [if_neg fun k => h1 (e1.mp k), if_neg h1]
    by_cases h2 : part = "..".toList
    · rw [if_pos (by simp [h2]), if_pos h2, pop_spec stem h]
    · rw [if_neg (by simpa using h2), if_neg h2, render_concat]
      rcases List.eq_nil_or_concat dirs with rfl | ⟨ds, d, rfl⟩
      · simp [render]
      · rw [List.concat_eq_append] at h ⊢
        have last : (render stem (ds ++ [d])).getLast? ≠ some '/' := by
          have := last_name (h d (by simp)) (stem ++ ds.flatMap (fun d => '/' :: d) ++ ['/'])
          rw [render_concat]
          simpa using this
        rw [if_neg last, render_concat]
        simp

theorem loop_spec (stem : Text) (s : Text) : ∀ (part : Text) {dirs : List Text}, Clean dirs →
    (∀ c ∈ part, ¬ Sep c) →
    ∃ p ps, partsOf s = p :: ps ∧
      loop (stem.length + 1) s part (render stem dirs) =
        render stem (ps.foldl step (step dirs (part ++ p))) ∧
      Clean (ps.foldl step (step dirs (part ++ p))) := by
  induction s with
  | nil =>
    intro part dirs h hp
    refine ⟨[], [], rfl, ?_, ?_⟩
    · simp only [loop, List.append_nil, List.foldl_nil]; exact segment_spec stem h
    · simpa using step_clean h hp
  | cons c r ih =>
    intro part dirs h hp
    by_cases hs : Sep c
    · obtain ⟨p, ps, e, f, g⟩ := ih [] (dirs := step dirs part) (step_clean h hp) (by simp)
      refine ⟨[], p :: ps, by rw [partsOf_sep hs, e], ?_, ?_⟩
      · rw [loop, if_pos ((isSlash_iff _).mpr hs), segment_spec stem h, f]
        simp
      · simpa using g
    · obtain ⟨p, ps, e, f, g⟩ := ih (part ++ [c]) h (by
        intro x hx
        rcases List.mem_append.mp hx with hx | hx
        · exact hp x hx
        · obtain rfl := List.mem_singleton.mp hx
          exact hs)
      refine ⟨c :: p, ps, by rw [partsOf, if_neg hs, e], ?_, ?_⟩
      · rw [loop, if_neg fun k => hs ((isSlash_iff _).mp k), f]
        simp
      · simpa using g

theorem loop_leads (stem s : Text) :
    loop (stem.length + 1) s [] (render stem []) = render stem (leads s) ∧ Clean (leads s) := by
  obtain ⟨p, ps, e, f, g⟩ := loop_spec stem s [] (dirs := []) (fun _ h => by cases h) (by simp)
  have : leads s = ps.foldl step (step [] ([] ++ p)) := by
    unfold leads; rw [e]; rfl
  rw [this]
  exact ⟨f, g⟩

/-! ## The front -/

theorem strip_some {p s t : Text} : strip p s = some t ↔ s = p ++ t := by
  unfold strip
  constructor
  · split
    · next h =>
      intro e; cases e
      obtain ⟨u, rfl⟩ := List.isPrefixOf_iff_prefix.mp h
      simp
    · intro e; cases e
  · rintro rfl
    rw [if_pos (by simp)]
    simp

theorem extended_spec (raw : Text) : ∃ e, raw = e ++ stripExtended raw ∧
    (Extended e ∨ e = [] ∧ ∀ p t, Extended p → raw ≠ p ++ t) := by
  unfold stripExtended
  cases h1 : strip ['\\', '\\', '?', '\\'] raw with
  | some t => exact ⟨_, by simpa using strip_some.mp h1, Or.inl (Or.inl rfl)⟩
  | none =>
    cases h2 : strip ['/', '/', '?', '/'] raw with
    | some t => exact ⟨_, by simpa using strip_some.mp h2, Or.inl (Or.inr rfl)⟩
    | none =>
      refine ⟨[], rfl, Or.inr ⟨rfl, ?_⟩⟩
      rintro p t (rfl | rfl) e
      · have := strip_some.mpr e
        exact absurd (h1.symm.trans this) (by simp)
      · have := strip_some.mpr e
        exact absurd (h2.symm.trans this) (by simp)

theorem drive_letter {c : Char} (h : Letter c) (r : Text) :
    drive (c :: ':' :: r) = (some (small c), skipSlashes r) := by
  rw [drive, if_pos ((isAlpha_iff c).mpr h), lower_eq h]

theorem drive_none {s : Text} (h : ¬ DriveLike s) : drive s = (none, s) := by
  unfold drive
  split
  · next c r =>
    rw [if_neg]
    exact fun k => h ⟨c, r, rfl, (isAlpha_iff c).mp k⟩
  · rfl

theorem skip_leads (s : Text) : leads (skipSlashes s) = leads s := by
  obtain ⟨seps, e, h, -⟩ := skip_spec s
  conv => rhs; rw [e]
  exact (leads_seps _ _ h).symm

theorem normalize_drive {raw : Text} {c : Char} {r : Text} (h : Letter c)
    (e : skipSlashes (stripExtended raw) = c :: ':' :: r) :
    normalize raw = render [small c, ':'] (leads r) := by
  simp only [normalize]
  rw [e, drive_letter h]
  have := (loop_leads [small c, ':'] (skipSlashes r)).1
  rw [skip_leads] at this
  exact this

theorem normalize_plain {raw : Text} (h : ¬ DriveLike (skipSlashes (stripExtended raw))) :
    normalize raw = render [] (leads (skipSlashes (stripExtended raw))) := by
  simp only [normalize]
  rw [drive_none h]
  exact (loop_leads [] _).1

end Verif.Paths
