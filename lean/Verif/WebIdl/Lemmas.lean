import Verif.WebIdl.Spec

/-! # Lemmas for C91 -/

namespace Verif.WebIdl

variable {σ ε V S N Y : Type} {R : Rt σ ε V S N Y}

section
variable {α β γ : Type}

theorem bind_def (m : M σ ε α) (f : α → M σ ε β) : m >>= f = M.andThen m f := rfl

theorem pure_bind' (a : α) (f : α → M σ ε β) : (pure a : M σ ε α) >>= f = f a := rfl

theorem throw_bind (f : α → M σ ε β) : (throwType R : M σ ε α) >>= f = throwType R := rfl

theorem stop_bind (e : Err ε) (f : α → M σ ε β) : (M.stop e : M σ ε α) >>= f = M.stop e := rfl

theorem bind_assoc' (m : M σ ε α) (f : α → M σ ε β) (g : β → M σ ε γ) :
    m >>= f >>= g = m >>= fun a => f a >>= g := by
  funext s
  show M.andThen (M.andThen m f) g s = M.andThen m (fun a => M.andThen (f a) g) s
  unfold M.andThen
  rcases m s with ⟨_ | a, s'⟩ <;> rfl

theorem bind_pure' (m : M σ ε α) : (m >>= fun a => pure a) = m := by
  funext s
  show M.andThen m (fun a => M.ret a) s = m s
  unfold M.andThen M.ret
  rcases m s with ⟨_ | a, s'⟩ <;> rfl

theorem bind_congr' {m : M σ ε α} {P : α → Prop} {f g : α → M σ ε β} (hm : Ensures m P)
    (h : ∀ a, P a → f a = g a) : m >>= f = m >>= g := by
  funext s
  show M.andThen m f s = M.andThen m g s
  unfold M.andThen
  rcases hs : m s with ⟨_ | a, s'⟩
  · rfl
  · show f a s' = g a s'
    rw [h a (hm s a s' hs)]

theorem ite_bind {c : Prop} [Decidable c] (m n : M σ ε α) (f : α → M σ ε β) :
    (if c then m else n) >>= f = if c then m >>= f else n >>= f := by
  split <;> rfl

/-! ## Ensures -/

theorem Ensures.ret {a : α} {P : α → Prop} (h : P a) : Ensures (pure a : M σ ε α) P := by
  intro s b s' e
  cases e
  exact h

theorem Ensures.throw {P : α → Prop} : Ensures (throwType R : M σ ε α) P := by
  intro s b s' e
  cases e

theorem Ensures.stop {e : Err ε} {P : α → Prop} : Ensures (M.stop e : M σ ε α) P := by
  intro s b s' e
  cases e

theorem Ensures.bind {m : M σ ε α} {f : α → M σ ε β} {P : α → Prop} {Q : β → Prop}
    (hm : Ensures m P) (hf : ∀ a, P a → Ensures (f a) Q) : Ensures (m >>= f) Q := by
  intro s b s' e
  change M.andThen m f s = _ at e
  unfold M.andThen at e
  rcases hs : m s with ⟨_ | a, s''⟩
  · rw [hs] at e; cases e
  · rw [hs] at e
    exact hf a (hm s a s'' hs) s'' b s' e

theorem Ensures.any {m : M σ ε α} : Ensures m (fun _ => True) := fun _ _ _ _ => trivial

theorem Ensures.then {m : M σ ε α} {f : α → M σ ε β} {Q : β → Prop}
    (hf : ∀ a, Ensures (f a) Q) : Ensures (m >>= f) Q := Ensures.any.bind fun a _ => hf a

theorem Ensures.mono {m : M σ ε α} {P Q : α → Prop} (hm : Ensures m P) (h : ∀ a, P a → Q a) :
    Ensures m Q := fun s a s' e => h a (hm s a s' e)

theorem Returns.ret {a : α} : Returns (pure a : M σ ε α) := fun s => ⟨a, s, rfl⟩

theorem Returns.bind {m : M σ ε α} {f : α → M σ ε β} (hm : Returns m) (hf : ∀ a, Returns (f a)) :
    Returns (m >>= f) := by
  intro s
  obtain ⟨a, s', e⟩ := hm s
  obtain ⟨b, s'', e'⟩ := hf a s'
  refine ⟨b, s'', ?_⟩
  show M.andThen m f s = _
  unfold M.andThen
  rw [e]
  exact e'
end

/-! ## Decimal keys -/

theorem digitChar_toNat : ∀ d, d < 10 → (Nat.digitChar d).toNat = 48 + d := by decide

theorem digitLoop_eq (n : Nat) : ∀ buf, 0 < n →
    digitLoop n buf = (Nat.toDigits 10 n).map Char.toNat ++ buf := by
  induction n using Nat.strongRecOn with
  | _ n ih =>
    intro buf hn
    rw [digitLoop, dif_neg (by omega), Nat.toDigits_eq_if (by decide)]
    by_cases h : n < 10
    · rw [if_pos h, Nat.div_eq_of_lt h, Nat.mod_eq_of_lt h, digitLoop, dif_pos rfl]
      simp [digitChar_toNat n h]
    · rw [if_neg h, ih (n / 10) (by omega) _ (by omega)]
      simp [digitChar_toNat (n % 10) (by omega)]

theorem indexKey_eq (n : Nat) : indexKey n = decimal n := by
  unfold indexKey decimal
  rw [Nat.toList_repr]
  split
  · subst n; rfl
  · rw [digitLoop_eq n [] (by omega), List.append_nil]

theorem indexKey_length {n : Nat} (h : n < 2 ^ 64) : (indexKey n).length ≤ 20 := by
  rw [indexKey_eq, decimal, List.length_map, Nat.toList_repr,
    Nat.length_toDigits_le_iff (by decide) (by decide)]
  omega

/-! ## Arrays and sequences -/

theorem fill_eq (arr : V) (js : List V) : ∀ i, fill R arr i js = putAll R arr i js := by
  induction js with
  | nil => intro i; rfl
  | cons x xs ih =>
    intro i
    simp only [fill, putAll, indexKey_eq, ih]

theorem toJsAll_eq (t : Ty) (xs : List (Val V S N)) :
    toJsAll R t xs = inOrder (toJs R t) xs := by
  induction xs with
  | nil => simp [toJsAll, inOrder]
  | cons x xs ih => simp only [toJsAll, inOrder, ih]

theorem inOrder_length {α β : Type} (D : α → M σ ε β) (xs : List α) :
    Ensures (inOrder D xs) (fun ys => ys.length = xs.length) := by
  induction xs with
  | nil => exact .ret rfl
  | cons x xs ih =>
    exact .then fun y => ih.bind fun ys h => .ret (by simp [h])

theorem collect_eq (C : V → M σ ε (Val V S N)) (it : V) : ∀ n out, out.length + n = R.limit →
    collect R C it n out = readUpTo R C it n >>= fun xs => pure (out ++ xs) := by
  intro n
  induction n with
  | zero =>
    intro out h
    unfold collect readUpTo
    rw [bind_assoc']
    congr 1
    funext o
    cases o with
    | none => simp [pure_bind']
    | some v => simp only [stop_bind]; rw [show out.length = R.limit by omega]
  | succ n ih =>
    intro out h
    unfold collect readUpTo
    rw [bind_assoc']
    congr 1
    funext o
    cases o with
    | none => simp [pure_bind']
    | some v =>
      simp only [bind_assoc', pure_bind']
      congr 1
      funext x
      rw [ih _ (by simp; omega)]
      simp

theorem readUpTo_length (C : V → M σ ε (Val V S N)) (P : Val V S N → Prop)
    (hC : ∀ v, Ensures (C v) P) (it : V) : ∀ n,
    Ensures (readUpTo R C it n) (fun xs => xs.length ≤ n ∧ ∀ x ∈ xs, P x) := by
  intro n
  induction n with
  | zero =>
    refine .then fun o => ?_
    cases o with
    | none => exact .ret ⟨by simp, by simp⟩
    | some v => exact .stop
  | succ n ih =>
    refine .then fun o => ?_
    cases o with
    | none => exact .ret ⟨by simp, by simp⟩
    | some v =>
      refine (hC v).bind fun x hx => ih.bind fun xs h => .ret ⟨by simp; exact h.1, ?_⟩
      intro y hy
      rcases List.mem_cons.mp hy with rfl | hy
      · exact hx
      · exact h.2 y hy

theorem createSequence_eq (C : V → M σ ε (Val V S N)) (v m : V) (h : R.isObject v = true) :
    createSequence R C v m = sequenceFrom R C v m := by
  unfold createSequence sequenceFrom
  rw [if_pos h]
  congr 1
  funext it
  rw [collect_eq C it _ [] (by simp)]
  simp [bind_pure']

theorem sequenceFrom_ensures (C : V → M σ ε (Val V S N)) (P : Val V S N → Prop)
    (hC : ∀ v, Ensures (C v) P) (v m : V) :
    Ensures (sequenceFrom R C v m) (fun xs => xs.length ≤ R.limit ∧ ∀ x ∈ xs, P x) :=
  .then fun it => readUpTo_length C P hC it _

theorem createSequence_ensures (C : V → M σ ε (Val V S N)) (P : Val V S N → Prop)
    (hC : ∀ v, Ensures (C v) P) (v m : V) :
    Ensures (createSequence R C v m) (fun xs => xs.length ≤ R.limit ∧ ∀ x ∈ xs, P x) := by
  by_cases h : R.isObject v = true
  · rw [createSequence_eq C v m h]
    exact sequenceFrom_ensures C P hC v m
  · unfold createSequence
    rw [if_neg h]
    exact .throw

theorem createFrozen_eq (t : Ty) (xs : List (Val V S N)) (h : xs.length ≤ R.limit) :
    createFrozen R t xs = frozenFrom R (toJs R t) xs := by
  unfold createFrozen frozenFrom arrayOf
  rw [toJsAll_eq]
  refine bind_congr' (inOrder_length _ _) fun js hl => ?_
  rw [if_neg (by omega)]
  simp only [bind_assoc', fill_eq, pure_bind']

/-- A sequence made into a frozen array. -/
theorem frozen_tail (C : V → M σ ε (Val V S N)) (e : Ty) (v m : V) (h : R.isObject v = true) :
    (createSequence R C v m >>= fun xs => createFrozen R e xs) =
      sequenceFrom R C v m >>= fun xs => frozenFrom R (toJs R e) xs := by
  rw [createSequence_eq C v m h]
  exact bind_congr' (sequenceFrom_ensures C (fun _ => True) (fun _ => .any) v m)
    fun xs hx => createFrozen_eq e xs hx.1

/-! ## Unions -/

theorem find_attach (p : Ty → Bool) (l : List Ty) :
    (l.attach.find? (fun t => p t.1)).map Subtype.val = l.find? p := by
  induction l with
  | nil => rfl
  | cons a l ih =>
    by_cases h : p a = true
    · simp [List.find?_cons, h]
    · simp only [List.attach_cons, List.find?_cons, h, List.find?_map]
      rw [← ih]
      cases hx : l.attach.find? (fun t => p t.1) <;>
        simp [Function.comp_def, hx]

theorem match_attach {γ : Type} (p : Ty → Bool) (l : List Ty) (f : Ty → γ) (g : γ) :
    (match l.attach.find? (fun t => p t.1) with | some t => f t.1 | none => g) =
      (match l.find? p with | some t => f t | none => g) := by
  rw [← find_attach]
  cases l.attach.find? (fun t => p t.1) <;> rfl

mutual
theorem members_flat : ∀ t, nullableOf t = none → members t = flat t
  | .union ms, h => by
    simp only [members, flat]
    exact membersL_flats ms (by simpa [nullableOf] using h)
  | .nullable t, h => by simp [nullableOf] at h
  | .undefined, _ => rfl
  | .boolean, _ => rfl
  | .double, _ => rfl
  | .domString, _ => rfl
  | .object, _ => rfl
  | .sequence _, _ => rfl
  | .asyncSequence _, _ => rfl
  | .frozenArray _, _ => rfl
theorem membersL_flats : ∀ ms, nullableOfL ms = none → membersL ms = flats ms
  | [], _ => rfl
  | m :: ms, h => by
    simp only [nullableOfL, Option.or_eq_none_iff] at h
    simp only [membersL, flats]
    rw [members_flat m h.1, membersL_flats ms h.2]
end

mutual
theorem nullable_find : ∀ t, nullableOf t = (flat t).find? Ty.isNullable
  | .union ms => by simp only [nullableOf, flat]; exact nullableL_find ms
  | .nullable t => rfl
  | .undefined => rfl
  | .boolean => rfl
  | .double => rfl
  | .domString => rfl
  | .object => rfl
  | .sequence _ => rfl
  | .asyncSequence _ => rfl
  | .frozenArray _ => rfl
theorem nullableL_find : ∀ ms, nullableOfL ms = (flats ms).find? Ty.isNullable
  | [] => rfl
  | m :: ms => by
    simp only [nullableOfL, flats, List.find?_append]
    rw [nullable_find m, nullableL_find ms]
end

mutual
theorem includes_iff : ∀ t, includesUndefined t = (firstOf .undefined (flat t)).isSome
  | .union ms => by simp only [includesUndefined, flat]; exact anyUndefined_iff ms
  | .nullable t => rfl
  | .undefined => rfl
  | .boolean => rfl
  | .double => rfl
  | .domString => rfl
  | .object => rfl
  | .sequence _ => rfl
  | .asyncSequence _ => rfl
  | .frozenArray _ => rfl
theorem anyUndefined_iff : ∀ ms, anyUndefined ms = (firstOf .undefined (flats ms)).isSome
  | [] => rfl
  | m :: ms => by
    simp only [anyUndefined, flats, firstOf, List.find?_append, Option.isSome_or]
    rw [includes_iff m, anyUndefined_iff ms]; rfl
end

mutual
theorem flat_kind : ∀ t u, u ∈ flat t → u.kind ≠ .union
  | .union ms, u, h => flats_kind ms u (by simpa [flat] using h)
  | .undefined, u, h => by simp [flat] at h; simp [h, Ty.kind]
  | .boolean, u, h => by simp [flat] at h; simp [h, Ty.kind]
  | .double, u, h => by simp [flat] at h; simp [h, Ty.kind]
  | .domString, u, h => by simp [flat] at h; simp [h, Ty.kind]
  | .object, u, h => by simp [flat] at h; simp [h, Ty.kind]
  | .sequence t, u, h => by simp [flat] at h; simp [h, Ty.kind]
  | .asyncSequence t, u, h => by simp [flat] at h; simp [h, Ty.kind]
  | .frozenArray t, u, h => by simp [flat] at h; simp [h, Ty.kind]
  | .nullable t, u, h => by simp [flat] at h; simp [h, Ty.kind]
theorem flats_kind : ∀ ms u, u ∈ flats ms → u.kind ≠ .union
  | [], u, h => by simp [flats] at h
  | m :: ms, u, h => by
    rcases List.mem_append.mp (by simpa [flats] using h) with h | h
    · exact flat_kind m u h
    · exact flats_kind ms u h
end

theorem Member.mono {u : Ty} {ms ns : List Ty} (h : Member u ms) (hs : ∀ t ∈ ms, t ∈ ns) :
    Member u ns := by
  cases h with
  | here h => exact .here (hs _ h)
  | inner h h' => exact .inner (hs _ h) h'

mutual
theorem flat_member : ∀ t u, u ∈ flat t → Member u [t]
  | .union ms, u, h => .inner (by simp) (flats_member ms u (by simpa [flat] using h))
  | .undefined, u, h => .here (by simpa [flat] using h)
  | .boolean, u, h => .here (by simpa [flat] using h)
  | .double, u, h => .here (by simpa [flat] using h)
  | .domString, u, h => .here (by simpa [flat] using h)
  | .object, u, h => .here (by simpa [flat] using h)
  | .sequence t, u, h => .here (by simpa [flat] using h)
  | .asyncSequence t, u, h => .here (by simpa [flat] using h)
  | .frozenArray t, u, h => .here (by simpa [flat] using h)
  | .nullable t, u, h => .here (by simpa [flat] using h)
theorem flats_member : ∀ ms u, u ∈ flats ms → Member u ms
  | [], u, h => by simp [flats] at h
  | m :: ms, u, h => by
    rcases List.mem_append.mp (by simpa [flats] using h) with h | h
    · exact (flat_member m u h).mono (by simp)
    · exact (flats_member ms u h).mono (fun _ h => List.mem_cons_of_mem _ h)
end

end Verif.WebIdl
