import Verif.Paths.Lemmas

/-!
# C93: paths are normalized

Every path goes to the drive and the directories that it leads to, written in one way.
Normalizing again changes nothing, unless a directory with the name of a drive came to the front.
-/

namespace Verif.Paths

/-- **C93.** The path of a file is made of its drive and of the directories that it leads to. -/
theorem C93_normal (raw : Text) : Normal raw (normalize raw) := by
  obtain ⟨e, h1, h2⟩ := extended_spec raw
  obtain ⟨seps, h3, h4, h5⟩ := skip_spec (stripExtended raw)
  refine ⟨e, seps, skipSlashes (stripExtended raw), ?_, h2, h4, h5, ?_⟩
  · rw [← h3]; exact h1
  by_cases hd : DriveLike (skipSlashes (stripExtended raw))
  · obtain ⟨c, r, e, hc⟩ := hd
    exact Or.inl ⟨c, r, e, hc, normalize_drive hc e⟩
  · exact Or.inr ⟨hd, normalize_plain hd⟩

theorem seps_unique {a b r s : Text} (e : a ++ r = b ++ s) (ha : ∀ c ∈ a, Sep c)
    (hb : ∀ c ∈ b, Sep c) (hr : ∀ c t, r = c :: t → ¬ Sep c) (hs : ∀ c t, s = c :: t → ¬ Sep c) :
    r = s := by
  induction a generalizing b with
  | nil =>
    cases b with
    | nil => exact e
    | cons c t => exact absurd (hb c (by simp)) (hr c (t ++ s) e)
  | cons c t ih =>
    cases b with
    | nil => exact absurd (ha c (by simp)) (hs c (t ++ r) e.symm)
    | cons d u =>
      simp only [List.cons_append, List.cons.injEq] at e
      exact ih e.2 (fun x hx => ha x (by simp [hx])) (fun x hx => hb x (by simp [hx]))

theorem ext_unique {raw a b r s : Text} (ha : raw = a ++ r) (hb : raw = b ++ s)
    (h : Extended a ∨ a = [] ∧ ∀ p t, Extended p → raw ≠ p ++ t)
    (k : Extended b ∨ b = [] ∧ ∀ p t, Extended p → raw ≠ p ++ t) : r = s := by
  rcases h with h | ⟨rfl, h⟩
  · rcases k with k | ⟨rfl, k⟩
    · subst ha
      rcases h with rfl | rfl <;> rcases k with rfl | rfl <;> simpa using hb
    · exact absurd ha (k _ _ h)
  · rcases k with k | ⟨rfl, k⟩
    · exact absurd hb (h _ _ k)
    · exact ha.symm.trans hb

/-- **C93.** There is only one such path: paths that mean the same are the same. -/
theorem C93_unique {raw a b : Text} (ha : Normal raw a) (hb : Normal raw b) : a = b := by
  obtain ⟨e, l, r, h1, h2, h3, h4, h5⟩ := ha
  obtain ⟨f, m, s, k1, k2, k3, k4, k5⟩ := hb
  obtain rfl := seps_unique (ext_unique h1 k1 h2 k2) h3 k3 h4 k4
  rcases h5 with ⟨c, t, rfl, hc, rfl⟩ | ⟨h5, rfl⟩
  · rcases k5 with ⟨d, u, e, hd, rfl⟩ | ⟨k5, -⟩
    · cases e; rfl
    · exact absurd ⟨c, t, rfl, hc⟩ k5
  · rcases k5 with ⟨d, u, rfl, hd, -⟩ | ⟨-, rfl⟩
    · exact absurd ⟨d, u, rfl, hd⟩ h5
    · rfl

/-- **C93.** The path begins at a root, and only names follow: it has no `\`, no empty part, no
`.` and no `..`. -/
theorem C93_rooted (raw : Text) : ∃ stem dirs, normalize raw = render stem dirs ∧
    (stem = [] ∨ ∃ c, Letter c ∧ small c = c ∧ stem = [c, ':']) ∧ ∀ d ∈ dirs, IsName d := by
  by_cases hd : DriveLike (skipSlashes (stripExtended raw))
  · obtain ⟨c, r, e, hc⟩ := hd
    exact ⟨_, _, normalize_drive hc e, Or.inr ⟨_, (small_letter hc).1, (small_letter hc).2, rfl⟩,
      (loop_leads [] r).2⟩
  · exact ⟨_, _, normalize_plain hd, Or.inl rfl, (loop_leads [] _).2⟩

example : normalize "\\\\?\\C:\\a\\.\\b\\..\\..\\..\\c".toList = "c:/c".toList := by decide +kernel
example : normalize "src//lib/../main.ts".toList = "/src/main.ts".toList := by decide +kernel

theorem partsOf_name {d : Text} (h : ∀ c ∈ d, ¬ Sep c) {t p : Text} {ps : List Text}
    (e : partsOf t = p :: ps) : partsOf (d ++ t) = (d ++ p) :: ps := by
  induction d with
  | nil => exact e
  | cons c r ih =>
    rw [List.cons_append, partsOf, if_neg (h c (by simp)), ih fun x hx => h x (by simp [hx])]
    rfl

theorem partsOf_dirs {dirs : List Text} (h : Clean dirs) :
    partsOf (dirs.flatMap fun d => '/' :: d) = [] :: dirs := by
  induction dirs with
  | nil => rfl
  | cons d ds ih =>
    rw [List.flatMap_cons, List.cons_append, partsOf_sep (Or.inl rfl),
      partsOf_name (h d (by simp)).2.2.2 (ih fun x hx => h x (by simp [hx]))]
    simp

theorem steps_names {dirs : List Text} (h : Clean dirs) (acc : List Text) :
    dirs.foldl step acc = acc ++ dirs := by
  induction dirs generalizing acc with
  | nil => simp
  | cons d ds ih =>
    obtain ⟨h1, h2, h3, -⟩ := h d (by simp)
    rw [List.foldl_cons, step, if_neg (not_or.mpr ⟨h1, h2⟩), if_neg h3,
      ih fun x hx => h x (by simp [hx])]
    simp

theorem leads_dirs {dirs : List Text} (h : Clean dirs) :
    leads (if dirs = [] then ['/'] else dirs.flatMap fun d => '/' :: d) = dirs := by
  split
  · next e => subst e; decide
  · unfold leads
    rw [partsOf_dirs h, List.foldl_cons, show step [] [] = [] from rfl, steps_names h]
    rfl

theorem not_extended {c : Char} (h : Letter c) (r : Text) (p t : Text) (hp : Extended p) :
    c :: r ≠ p ++ t := by
  rintro e
  rcases hp with rfl | rfl <;>
  · simp only [String.toList] at e
    injection e with e1 e2
    subst e1
    revert h; unfold Letter; decide

/-- **C93, in part.** Normalizing again changes nothing, unless the part after the root looks like
a drive. -/
theorem C93_idempotent_partial (raw : Text)
    (h : ∀ s, normalize raw = '/' :: s → ¬ DriveLike s) :
    normalize (normalize raw) = normalize raw := by
  refine C93_unique (C93_normal _) ?_
  obtain ⟨stem, dirs, e, hs, hd⟩ := C93_rooted raw
  rw [e] at h ⊢
  rcases hs with rfl | ⟨c, hc, hsm, rfl⟩
  · have first : ∃ s, render [] dirs = '/' :: s ∧ (∀ c r, s = c :: r → ¬ Sep c) ∧
        leads s = dirs := by
      have hl := leads_dirs hd
      cases dirs with
      | nil => exact ⟨[], rfl, by simp, rfl⟩
      | cons d ds =>
        have hl : leads ('/' :: (d ++ ds.flatMap fun d => '/' :: d)) = d :: ds := by simpa using hl
        have := leads_seps ['/'] (d ++ ds.flatMap fun d => '/' :: d) (by simp [Sep])
        refine ⟨d ++ ds.flatMap fun d => '/' :: d, by simp [render], ?_, this.symm.trans hl⟩
        intro c r e
        obtain ⟨h1, -, -, h4⟩ := hd d (by simp)
        cases d with
        | nil => exact absurd rfl h1
        | cons x y =>
          simp only [List.cons_append, List.cons.injEq] at e
          exact e.1 ▸ h4 x (by simp)
    obtain ⟨s, e1, e2, e3⟩ := first
    rw [e1]
    refine ⟨[], ['/'], s, rfl, Or.inr ⟨rfl, ?_⟩, by simp [Sep], e2, Or.inr ⟨h s e1, ?_⟩⟩
    · rintro p t (rfl | rfl) k
      · simp at k
      · exact e2 '/' _ (by simpa using k) (Or.inl rfl)
    · rw [e3, e1]
  · refine ⟨[], [], render [c, ':'] dirs, rfl, Or.inr ⟨rfl, ?_⟩, by simp, ?_,
      Or.inl ⟨c, _, rfl, hc, ?_⟩⟩
    · exact fun p t hp => not_extended hc _ p t hp
    · intro x r e
      simp only [render, List.cons_append, List.cons.injEq] at e
      exact e.1 ▸ letter_not_sep hc
    · rw [hsm]
      congr 1
      exact (leads_dirs hd).symm

example : ∀ s, normalize "a/../b.ts".toList = '/' :: s → ¬ DriveLike s := by
  rintro s e ⟨c, r, rfl, -⟩
  have k : normalize "a/../b.ts".toList = "/b.ts".toList := by decide +kernel
  rw [k] at e
  simp at e

/-- **C93 fails.** A directory with the name of a drive, reached through `.`, is in a directory of
the root; normalized again, it is the drive. -/
theorem C93_idempotent_violated :
    normalize "./C:/x".toList = "/C:/x".toList ∧
      normalize (normalize "./C:/x".toList) = "c:/x".toList := by
  decide +kernel

end Verif.Paths
