import Verif.WebIdl.Convert

/-! # Overloads -/

namespace Verif.WebIdl

variable {σ ε V S N Y : Type} (R : Rt σ ε V S N Y)

/-! ## Kinds in types -/

mutual
theorem contains_members (p : Ty → Bool) : ∀ t, containsTy p t = (members t).any p
  | .union ms => by simp only [containsTy, members]; exact anyContains_members p ms
  | .nullable t => by simp only [containsTy, members]; exact contains_members p t
  | .undefined => by simp [containsTy, members]
  | .boolean => by simp [containsTy, members]
  | .double => by simp [containsTy, members]
  | .domString => by simp [containsTy, members]
  | .object => by simp [containsTy, members]
  | .sequence _ => by simp [containsTy, members]
  | .asyncSequence _ => by simp [containsTy, members]
  | .frozenArray _ => by simp [containsTy, members]
theorem anyContains_members (p : Ty → Bool) : ∀ ms, anyContains p ms = (membersL ms).any p
  | [] => rfl
  | m :: ms => by
    simp only [anyContains, membersL, List.any_append]
    rw [contains_members p m, anyContains_members p ms]
end

theorem has_string (i : Nat) :
    (fun o : Overload => containsTy Ty.isString (o.at i)) = Overload.has .string i := by
  funext o; rw [contains_members, isString_kind]; rfl

theorem has_async (i : Nat) :
    (fun o : Overload => containsTy Ty.isAsync (o.at i)) = Overload.has .async i := by
  funext o; rw [contains_members, isAsync_kind]; rfl

theorem has_sequence (i : Nat) :
    (fun o : Overload => containsTy Ty.isSequence (o.at i)) = Overload.has .sequence i := by
  funext o; rw [contains_members, isSequence_kind]; rfl

theorem has_frozen (i : Nat) :
    (fun o : Overload => containsTy Ty.isFrozen (o.at i)) = Overload.has .frozen i := by
  funext o; rw [contains_members, isFrozen_kind]; rfl

/-! ## The distinguishing argument -/

theorem category_class {x y : Ty} (hx : x.kind ≠ .union ∧ x.kind ≠ .nullable)
    (hy : y.kind ≠ .union ∧ y.kind ≠ .nullable) :
    category x = category y ↔ x.kind.class = y.kind.class := by
  cases x <;> cases y <;> simp_all [category, Ty.kind, Kind.class]

theorem members_single {u : Ty} (h : u.kind ≠ .union ∧ u.kind ≠ .nullable) :
    members u = [u] := by
  cases u <;> simp_all [Ty.kind, members]

mutual
theorem flat_mem : ∀ t u, u ∈ members t ↔ ∃ x ∈ flat t, u ∈ members x
  | .union ms, u => by simp only [members, flat]; exact flats_mem ms u
  | .undefined, u => by simp [members, flat]
  | .boolean, u => by simp [members, flat]
  | .double, u => by simp [members, flat]
  | .domString, u => by simp [members, flat]
  | .object, u => by simp [members, flat]
  | .sequence _, u => by simp [members, flat]
  | .asyncSequence _, u => by simp [members, flat]
  | .frozenArray _, u => by simp [members, flat]
  | .nullable t, u => by simp [members, flat]
theorem flats_mem : ∀ ms u, u ∈ membersL ms ↔ ∃ x ∈ flats ms, u ∈ members x
  | [], u => by simp [membersL, flats]
  | m :: ms, u => by
    simp only [membersL, flats, List.mem_append]
    rw [flat_mem m u, flats_mem ms u]
    constructor
    · rintro (⟨x, h, h'⟩ | ⟨x, h, h'⟩)
      · exact ⟨x, .inl h, h'⟩
      · exact ⟨x, .inr h, h'⟩
    · rintro ⟨x, h | h, h'⟩
      · exact .inl ⟨x, h, h'⟩
      · exact .inr ⟨x, h, h'⟩
end

/-- What a flat member of a simple type stands for. -/
theorem core_of {t x : Ty} (hs : Simple t) (hx : x ∈ flat t) :
    ∃ u, members x = [u] ∧ category x = category u ∧ u.kind ≠ .union ∧ u.kind ≠ .nullable := by
  have hk := flat_kind t x hx
  by_cases h : x.kind = .nullable
  · cases x <;> simp [Ty.kind] at h
    rename_i u
    have := hs u (flat_member t _ hx)
    exact ⟨u, by simp [members, members_single this], rfl, this⟩
  · exact ⟨x, members_single ⟨hk, h⟩, rfl, hk, h⟩

theorem distinguishable_iff {a b : Ty} (ha : Simple a) (hb : Simple b) :
    distinguishable a b = true ↔ Apart a b := by
  unfold distinguishable Apart
  simp only [List.all_eq_true, bne_iff_ne]
  constructor
  · intro h u hu w hw
    obtain ⟨x, hx, hux⟩ := (flat_mem a u).mp hu
    obtain ⟨y, hy, hwy⟩ := (flat_mem b w).mp hw
    obtain ⟨u', e1, e2, e3⟩ := core_of ha hx
    obtain ⟨w', f1, f2, f3⟩ := core_of hb hy
    rw [e1, List.mem_singleton] at hux
    rw [f1, List.mem_singleton] at hwy
    subst hux hwy
    intro hc
    exact h x hx y hy (by rw [e2, f2]; exact (category_class e3 f3).mpr hc)
  · intro h x hx y hy hc
    obtain ⟨u', e1, e2, e3⟩ := core_of ha hx
    obtain ⟨w', f1, f2, f3⟩ := core_of hb hy
    refine h u' ((flat_mem a u').mpr ⟨x, hx, by simp [e1]⟩) w'
      ((flat_mem b w').mpr ⟨y, hy, by simp [f1]⟩) ?_
    exact (category_class e3 f3).mp (by rw [← e2, ← f2]; exact hc)

theorem allDistinguishable_iff (i : Nat) (s : List Overload)
    (hs : ∀ o ∈ s, Simple (o.types.getD i .undefined)) :
    allDistinguishable i s = true ↔
      s.Pairwise fun o p => Apart (o.types.getD i .undefined) (p.types.getD i .undefined) := by
  induction s with
  | nil => simp [allDistinguishable]
  | cons o s ih =>
    simp only [allDistinguishable, Bool.and_eq_true, List.all_eq_true, List.pairwise_cons]
    rw [ih fun p hp => hs p (List.mem_cons_of_mem _ hp)]
    refine and_congr_left fun _ => forall_congr' fun p => forall_congr' fun hp => ?_
    exact distinguishable_iff (hs o (by simp)) (hs p (List.mem_cons_of_mem _ hp))

theorem distIndex_some {s : List Overload} {d : Nat} (h : distIndex s = some d) :
    d < (s.headD ⟨"", [], []⟩).types.length ∧ allDistinguishable d s = true ∧
      ∀ j < d, allDistinguishable j s = false := by
  unfold distIndex at h
  rw [List.find?_range_eq_some] at h
  refine ⟨by simpa using h.2.1, h.1, ?_⟩
  simpa using h.2.2

/-! ## The choice -/

theorem byString_eq (s : List Overload) (i : Nat) (v : V) (hf : ChoiceFits R s i v) :
    (do
      let s' ← byString R s i
      pure (s', none) : M σ ε (List Overload × Option (Arg V S N))) =
      choosePrimitive R s i v >>= fun r => pure ([r.1], r.2) := by
  unfold byString choosePrimitive
  simp only [has_string]
  cases hs : s.any (Overload.has .string i) with
  | true =>
    have h1 : (if R.isBoolean v then
        (if s.any (Overload.has .boolean i) then some Kind.boolean else none) else none) = none := by
      rcases hf.boolean with h | h
      · simp [h]
      · simp [h.2]
    have h2 : (if R.isNumber v then
        (if s.any (Overload.has .numeric i) then some Kind.numeric else none) else none) = none := by
      rcases hf.numeric with h | h
      · simp [h]
      · simp [h.2]
    rw [h1, h2, if_pos (c := (decide (1 < s.length) && true) = true)
      (by have := hf.many; simp; omega)]
    show _ = (do pure (← only R s (Overload.has .string i), none)) >>= _
    unfold only
    rcases hl : s.filter (Overload.has .string i) with _ | ⟨o, _ | ⟨p, l⟩⟩ <;> rfl
  | false =>
    have hb : s.any (Overload.has .boolean i) = false := by
      rcases hf.boolean with h | h
      · exact h
      · rw [hs] at h; cases h.1
    have hn : s.any (Overload.has .numeric i) = false := by
      rcases hf.numeric with h | h
      · exact h
      · rw [hs] at h; cases h.1
    have hm := hf.many
    rw [if_neg (c := (decide (1 < s.length) && false) = true) (by simp), if_neg (by omega)]
    simp [hb, hn, throw_bind]

/-- The retained overload and its argument. -/
theorem retain_eq (s : List Overload) (i : Nat) (p : Ty → Bool) (k : Kind)
    (hp : (fun o : Overload => containsTy p (o.at i)) = Overload.has k i)
    (hi : Option V) (ha : Option (AHint V)) (v : V) :
    retain R s i p hi ha v = only R s (Overload.has k i) >>= fun o =>
      convH R (o.types.getD i .undefined) hi ha v >>= fun x => pure ([o], some (.value x)) := by
  unfold retain only
  rw [hp]
  rcases hl : s.filter (Overload.has k i) with _ | ⟨o, _ | ⟨p, l⟩⟩ <;> rfl

theorem only_mem (s : List Overload) (p : Overload → Bool) :
    Ensures (only R s p) (fun o => o ∈ s ∧ p o = true) := by
  unfold only
  rcases hl : s.filter p with _ | ⟨o, _ | ⟨q, l⟩⟩
  · exact .throw
  · refine .ret ?_
    have : o ∈ s.filter p := by rw [hl]; simp
    exact List.mem_filter.mp this
  · exact .throw

theorem bySequence_eq (s : List Overload) (i : Nat) (v : V) (hf : ChoiceFits R s i v)
    (hv : R.isObject v = true) :
    bySequence R s i v = chooseSequence R (convert R) s i v (chooseFrozen R (convert R) (toJs R)
      s i v (chooseObject R s i (choosePrimitive R s i v))) >>= fun r => pure ([r.1], r.2) := by
  have hstr := byString_eq R s i v hf
  unfold bySequence
  simp only [has_sequence, has_frozen]
  rw [hstr]
  unfold chooseSequence chooseFrozen chooseObject
  rw [hf.object hv]
  simp only [Bool.false_eq_true, if_false, hv, Bool.true_and]
  generalize choosePrimitive R s i v = P
  cases hs : s.any (Overload.has .sequence i) with
  | true =>
    have hfr : s.any (Overload.has .frozen i) = false := by
      rcases hf.one with h | h
      · rw [hs] at h; cases h
      · exact h
    simp only [hfr, Bool.or_false, if_true, Bool.false_eq_true, if_false]
    rw [bind_assoc']
    show methodOf R v .iterator >>= _ = lookup R v .iterator >>= _
    congr 1
    funext o
    cases o with
    | none => rfl
    | some m =>
      simp only
      rw [retain_eq R s i _ .sequence (has_sequence i), bind_assoc']
      refine bind_congr' (only_mem R s _) fun o ho => ?_
      have hk := hf.plain o ho.1 .sequence (.inl rfl) ho.2
      generalize o.types.getD i .undefined = t at hk
      cases t <;> simp [Ty.kind] at hk
      rename_i e
      simp only [convH_seq R e v m hv, bind_assoc', pure_bind']
  | false =>
    cases hfr : s.any (Overload.has .frozen i) with
    | false => simp
    | true =>
      simp only [Bool.or_true, if_true, Bool.false_eq_true, if_false]
      rw [bind_assoc']
      show methodOf R v .iterator >>= _ = lookup R v .iterator >>= _
      congr 1
      funext o
      cases o with
      | none => rfl
      | some m =>
        simp only
        rw [retain_eq R s i _ .frozen (has_frozen i), bind_assoc']
        refine bind_congr' (only_mem R s _) fun o ho => ?_
        have hk := hf.plain o ho.1 .frozen (.inr (.inl rfl)) ho.2
        generalize o.types.getD i .undefined = t at hk
        cases t <;> simp [Ty.kind] at hk
        rename_i e
        simp only [convH_frozen R e v m hv, bind_assoc', pure_bind']

theorem choose_eq (s : List Overload) (i : Nat) (v : V) (hf : ChoiceFits R s i v) :
    choose R s i v =
      chooseSpec R (convert R) (toJs R) s i v >>= fun r => pure ([r.1], r.2) := by
  unfold chooseSpec
  rw [if_neg (by rintro ⟨h1, h2⟩; rw [hf.optional h1] at h2; cases h2),
    if_neg (by rintro ⟨h1, h2⟩; rw [hf.nullable h1] at h2; cases h2)]
  unfold choose
  simp only [has_string, has_async]
  by_cases hv : R.isObject v = true
  · rw [if_pos hv, bySequence_eq R s i v hf hv]
    simp only [hv, Bool.true_and]
    generalize chooseSequence R (convert R) s i v (chooseFrozen R (convert R) (toJs R)
      s i v (chooseObject R s i (choosePrimitive R s i v))) = P
    unfold chooseAsync
    by_cases hc : s.any (Overload.has .async i) = true ∧
        ¬ (s.any (Overload.has .string i) = true ∧ R.isStringObject v = true)
    · rw [if_pos hc, if_pos (by
        simp only [Bool.and_eq_true, Bool.not_eq_true']
        exact ⟨hc.1, by simpa using hc.2⟩), bind_assoc']
      have one : ∀ (a : AHint V) (x : Val V S N), asyncVal v a = x →
          retain R s i Ty.isAsync none (some a) v =
          (only R s (Overload.has .async i) >>= fun o =>
            pure (o, some (.value x))) >>= fun r => pure ([r.1], r.2) := by
        rintro a x rfl
        rw [retain_eq R s i _ .async (has_async i), bind_assoc']
        refine bind_congr' (only_mem R s _) fun o ho => ?_
        have hk := hf.plain o ho.1 .async (.inr (.inr rfl)) ho.2
        generalize o.types.getD i .undefined = t at hk
        cases t <;> simp [Ty.kind] at hk
        rename_i e
        simp only [convH_async R e v a hv, pure_bind']
      show methodOf R v .asyncIterator >>= _ = lookup R v .asyncIterator >>= _
      congr 1
      funext o
      cases o with
      | some m => exact one (.async m) _ rfl
      | none =>
        simp only [bind_assoc']
        show methodOf R v .iterator >>= _ = lookup R v .iterator >>= _
        congr 1
        funext o
        cases o with
        | some m => exact one (.sync m) _ rfl
        | none => rfl
    · rw [if_neg hc, if_neg (by
        simp only [Bool.and_eq_true, Bool.not_eq_true']
        intro h
        exact hc ⟨h.1, by simpa using h.2⟩)]
  · rw [if_neg hv]
    simp only [Bool.not_eq_true] at hv
    rw [if_neg (by simp [hv])]
    unfold bySequence
    simp only [has_sequence, has_frozen]
    rw [if_neg (by simp [hv])]
    exact byString_eq R s i v hf

/-! ## What is chosen fits -/

/-- One argument fits. -/
def ArgAt (o : Overload) (args : List V) (j : Nat) : Arg V S N → Prop
  | .missing => o.opt j = true ∧ ∃ v, args[j]? = some v ∧ R.isUndefined v = true
  | .value x => HasType R (o.types.getD j .undefined) x

theorem convert_typed (t : Ty) (v : V) : Ensures (convert R t v) (HasType R t) :=
  convH_typed R _ t (Nat.le_refl _) none none v

theorem convArg_ensures (o : Overload) (args : List V) (i : Nat) :
    Ensures (convArg R o args i) (ArgAt R o args i) := by
  unfold convArg
  cases h : args[i]? with
  | none => exact .stop
  | some v =>
    simp only
    split
    · rename_i hc
      rw [Bool.and_eq_true] at hc
      exact .ret ⟨hc.1, v, h, hc.2⟩
    · exact (convert_typed R _ v).bind fun x hx => .ret hx

theorem convArgs_ensures (o : Overload) (args : List V) : ∀ n i,
    Ensures (convArgs R o args i n) (fun xs => xs.length = n ∧
      ∀ k (a : Arg V S N), xs[k]? = some a → ArgAt R o args (i + k) a) := by
  intro n
  induction n with
  | zero => intro i; exact .ret ⟨rfl, by simp⟩
  | succ n ih =>
    intro i
    refine (convArg_ensures R o args i).bind fun a ha => (ih (i + 1)).bind fun xs hx => .ret ?_
    refine ⟨by simp [hx.1], ?_⟩
    intro k b hk
    cases k with
    | zero => simp at hk; subst hk; exact ha
    | succ k =>
      have := hx.2 k b (by simpa using hk)
      rwa [show i + (k + 1) = i + 1 + k by omega]

/-- What `choose` gives. -/
def Chosen (s : List Overload) (i : Nat) (r : List Overload × Option (Arg V S N)) : Prop :=
  ∃ q ∈ s, r.1 = [q] ∧
    ∀ a, r.2 = some a → ∃ x, a = .value x ∧ HasType R (q.types.getD i .undefined) x

theorem retain_ensures (s : List Overload) (i : Nat) (p : Ty → Bool) (hi : Option V)
    (ha : Option (AHint V)) (v : V) : Ensures (retain R s i p hi ha v) (Chosen R s i) := by
  unfold retain
  rcases hl : s.filter (fun o => containsTy p (o.at i)) with _ | ⟨o, _ | ⟨q, l⟩⟩ <;>
    simp only [hl]
  · exact .throw
  · have hm : o ∈ s := (List.mem_filter.mp (by rw [hl]; simp : o ∈ s.filter _)).1
    refine (convH_typed R _ (o.at i) (Nat.le_refl _) hi ha v).bind fun x hx => .ret ?_
    exact ⟨o, hm, rfl, by rintro a ⟨⟩; exact ⟨x, rfl, hx⟩⟩
  · exact .throw

theorem byString_ensures (s : List Overload) (i : Nat) :
    Ensures (byString R s i) (fun s' => ∃ q ∈ s, s' = [q]) := by
  unfold byString
  simp only
  split
  · split
    · rename_i h
      obtain ⟨q, hq⟩ := List.length_eq_one_iff.mp h
      exact .ret ⟨q, (List.mem_filter.mp (by rw [hq]; simp : q ∈ s.filter _)).1, hq⟩
    · exact .throw
  · split
    · rename_i h
      obtain ⟨q, hq⟩ := List.length_eq_one_iff.mp h
      exact .ret ⟨q, by simp [hq], hq⟩
    · exact .throw

theorem bySequence_ensures (s : List Overload) (i : Nat) (v : V) :
    Ensures (bySequence R s i v) (Chosen R s i) := by
  have hs : Ensures (do
      let s' ← byString R s i
      pure (s', none) : M σ ε (List Overload × Option (Arg V S N))) (Chosen R s i) :=
    (byString_ensures R s i).bind fun s' ⟨q, hq, e⟩ => .ret ⟨q, hq, e, by rintro a ⟨⟩⟩
  unfold bySequence
  simp only
  split
  · refine .then fun o => ?_
    cases o with
    | none => exact hs
    | some m =>
      simp only
      split <;> exact retain_ensures R _ _ _ _ _ _
  · exact hs

theorem choose_ensures (s : List Overload) (i : Nat) (v : V) :
    Ensures (choose R s i v) (Chosen R s i) := by
  unfold choose
  split
  · refine .then fun o => ?_
    cases o with
    | some m => exact retain_ensures R _ _ _ _ _ _
    | none =>
      refine .then fun o => ?_
      cases o with
      | some m => exact retain_ensures R _ _ _ _ _ _
      | none => exact bySequence_ensures R s i v
  · exact bySequence_ensures R s i v

theorem argsFit_of {o : Overload} {args : List V} {xs : List (Arg V S N)}
    (hl : xs.length = o.types.length)
    (h : ∀ k (a : Arg V S N), xs[k]? = some a → ArgAt R o args k a) : ArgsFit R o args xs := by
  refine ⟨hl, ?_⟩
  intro i a ha
  have hi : i < o.types.length := by
    rw [← hl]
    exact (List.getElem?_eq_some_iff.mp ha).1
  refine ⟨o.types[i], by simp [hi], ?_⟩
  have := h i a ha
  cases a with
  | missing => exact this
  | value x =>
    simpa [ArgAt, List.getD, hi] using this

/-! ## The whole resolution -/

theorem convArgs_eq (o : Overload) (args : List V) : ∀ k i, i + k ≤ args.length →
    convArgs R o args i k = arguments R (convert R) o args i (i + k) := by
  intro k
  induction k with
  | zero =>
    intro i _
    unfold arguments
    rw [Nat.add_zero, List.drop_of_length_le (by simp; omega)]
    rfl
  | succ k ih =>
    intro i h
    unfold convArgs convArg
    rw [List.getElem?_eq_getElem (by omega), ih (i + 1) (by omega),
      show i + 1 + k = i + (k + 1) by omega]
    have e : arguments R (convert R) o args i (i + (k + 1)) =
        argument R (convert R) o (args[i], i) >>= fun a =>
          arguments R (convert R) o args (i + 1) (i + (k + 1)) >>= fun as => pure (a :: as) := by
      unfold arguments
      rw [List.drop_eq_getElem_cons (by simp; omega)]
      simp only [inOrder, List.getElem_take, List.getElem_zipIdx, Nat.zero_add]
    rw [e]
    simp only [argument, Overload.opt, Bool.and_eq_true]
    rfl

theorem maxArg_le (os : List Overload) : ∀ a, (∀ o ∈ os, o.types.length ≤
      os.foldl (fun m o => max m o.types.length) a) ∧
    a ≤ os.foldl (fun m o => max m o.types.length) a ∧
    (os.foldl (fun m o => max m o.types.length) a = a ∨
      ∃ o ∈ os, o.types.length = os.foldl (fun m o => max m o.types.length) a) := by
  induction os with
  | nil => intro a; simp
  | cons o os ih =>
    intro a
    simp only [List.foldl_cons]
    obtain ⟨h1, h2, h3⟩ := ih (max a o.types.length)
    refine ⟨?_, by omega, ?_⟩
    · intro p hp
      rcases List.mem_cons.mp hp with rfl | hp
      · omega
      · exact h1 p hp
    · rcases h3 with h3 | ⟨p, hp, h3⟩
      · rw [h3]
        by_cases hc : o.types.length ≤ a
        · left; omega
        · right; exact ⟨o, by simp, by omega⟩
      · exact Or.inr ⟨p, List.mem_cons_of_mem _ hp, h3⟩

theorem maxArg_eq {os : List Overload} {m : Nat} (h : IsMax os m) : maxArg os = m := by
  obtain ⟨h1, h2⟩ := h
  obtain ⟨g1, -, g2⟩ := maxArg_le os 0
  change (∀ o ∈ os, o.types.length ≤ maxArg os) at g1
  change maxArg os = 0 ∨ ∃ o ∈ os, o.types.length = maxArg os at g2
  rcases h2 with rfl | ⟨o, ho, h2⟩ <;> rcases g2 with g2 | ⟨p, hp, g2⟩
  · exact g2
  · have := h1 p hp; omega
  · have := g1 o ho; omega
  · have := g1 o ho
    have := h1 p hp
    omega

theorem told_iff {s : List Overload} (hs : ∀ o ∈ s, ∀ t ∈ o.types, Simple t) (i : Nat) :
    allDistinguishable i s = true ↔ Told s i := by
  refine allDistinguishable_iff i s fun o ho => ?_
  by_cases hi : i < o.types.length
  · rw [List.getD_eq_getElem?_getD, List.getElem?_eq_getElem hi]
    exact hs o ho _ (List.getElem_mem hi)
  · rw [List.getD_eq_getElem?_getD, List.getElem?_eq_none (by omega)]
    intro u hu
    rcases hu with h | ⟨h, -⟩ <;> simp at h

theorem distIndex_eq {s : List Overload} (hs : ∀ o ∈ s, ∀ t ∈ o.types, Simple t) {n d : Nat}
    (hn : ∀ o ∈ s, o.types.length = n) (hne : s ≠ []) :
    distIndex s = some d ↔ d < n ∧ Told s d ∧ ∀ j < d, ¬ Told s j := by
  unfold distIndex
  rw [List.find?_range_eq_some]
  have hh : (s.headD ⟨"", [], []⟩).types.length = n := by
    cases s with
    | nil => exact absurd rfl hne
    | cons o s => exact hn o (by simp)
  rw [hh, told_iff hs]
  simp only [List.mem_range, Bool.not_eq_true']
  constructor
  · rintro ⟨h1, h2, h3⟩
    exact ⟨h2, h1, fun j hj ht => by
      have := h3 j hj
      rw [(told_iff hs j).mpr ht] at this
      cases this⟩
  · rintro ⟨h1, h2, h3⟩
    exact ⟨h2, h1, fun j hj => by
      have := mt (told_iff hs j).mp (h3 j hj)
      simpa using this⟩

theorem resolve_ensures (os : List Overload) (args : List V) (hag : Agree os) :
    Ensures (resolve R os args) (fun r => r.1 ∈ os ∧
      r.1.types.length = min (maxArg os) args.length ∧ ArgsFit R r.1 args r.2) := by
  unfold resolve
  simp only
  generalize hn : min (maxArg os) args.length = n
  have hmem : ∀ o ∈ os.filter (fun o => o.types.length == n), o ∈ os ∧ o.types.length = n := by
    intro o ho
    have := List.mem_filter.mp ho
    exact ⟨this.1, by simpa using this.2⟩
  rcases hl : os.filter (fun o => o.types.length == n) with _ | ⟨o, _ | ⟨p, s⟩⟩ <;>
    simp only [hl]
  · exact .throw
  · obtain ⟨h1, h2⟩ := hmem o (by rw [hl]; simp)
    refine (convArgs_ensures R o args n 0).bind fun xs hx => .ret ⟨h1, h2, ?_⟩
    refine argsFit_of R (by rw [hx.1, h2]) fun k a hk => ?_
    simpa using hx.2 k a hk
  · cases hd : distIndex (o :: p :: s) with
    | none => exact .throw
    | some d =>
      rw [hl] at hmem
      have hlt : d < n := by
        have := (distIndex_some hd).1
        simpa [(hmem o (by simp)).2] using this
      refine (convArgs_ensures R o args d 0).bind fun xs hx => ?_
      cases hv : args[d]? with
      | none => exact .stop
      | some v =>
        refine (choose_ensures R (o :: p :: s) d v).bind fun r hr => ?_
        obtain ⟨q, hq, e, ha⟩ := hr
        obtain ⟨r1, r2⟩ := r
        simp only at e ha
        subst e
        obtain ⟨h1, h2⟩ := hmem q hq
        have pre : ∀ k (a : Arg V S N), xs[k]? = some a → ArgAt R q args k a := by
          intro k a hk
          have hk' : k < d := by rw [← hx.1]; exact (List.getElem?_eq_some_iff.mp hk).1
          have := hx.2 k a hk
          rw [Nat.zero_add] at this
          have hdec : (os.filter fun o => o.types.length = n) = o :: p :: s := by
            rw [← hl]
            exact List.filter_congr fun x _ => by simp [BEq.beq]
          have hnt : ∀ j ≤ k, ¬ Told (os.filter fun o => o.types.length = n) j := by
            rw [hdec]
            intro j hj
            exact ((distIndex_eq (fun x hx => hag.simple x (hmem x hx).1)
              (fun x hx => (hmem x hx).2) (by simp)).mp hd).2.2 j (by omega)
          obtain ⟨g1, g2⟩ := hag.same n k hnt o (hmem o (by simp)).1 q h1
            (hmem o (by simp)).2 h2
          cases a with
          | missing => exact ⟨by rw [← g2]; exact this.1, this.2⟩
          | value x =>
            show HasType R _ x
            rw [← g1]
            exact this
        cases r2 with
        | some a =>
          obtain ⟨x, rfl, hx'⟩ := ha a rfl
          refine (convArgs_ensures R q args (n - (d + 1)) (d + 1)).bind fun ys hy =>
            .ret ⟨h1, h2, argsFit_of R ?_ ?_⟩
          · simp [hx.1, hy.1, h2]; omega
          · intro k b hk
            by_cases hkd : k < d
            · rw [List.getElem?_append_left (by omega)] at hk
              exact pre k b hk
            · rw [List.getElem?_append_right (by omega), hx.1] at hk
              by_cases hke : k = d
              · subst hke
                simp at hk
                subst hk
                exact hx'
              · obtain ⟨j, rfl⟩ : ∃ j, k = d + 1 + j := ⟨k - (d + 1), by omega⟩
                rw [show d + 1 + j - d = j + 1 by omega, List.getElem?_cons_succ] at hk
                exact hy.2 j b hk
        | none =>
          refine (convArgs_ensures R q args (n - d) d).bind fun ys hy =>
            .ret ⟨h1, h2, argsFit_of R ?_ ?_⟩
          · simp [hx.1, hy.1, h2]; omega
          · intro k b hk
            by_cases hkd : k < d
            · rw [List.getElem?_append_left (by omega)] at hk
              exact pre k b hk
            · rw [List.getElem?_append_right (by omega), hx.1] at hk
              have := hy.2 _ b hk
              rwa [show d + (k - d) = k by omega] at this

/-- The whole resolution when several overloads are left. -/
theorem resolve_many (os : List Overload) (args : List V) {m n d : Nat} {v : V} {o p : Overload}
    {s : List Overload} (hm : IsMax os m) (hn : n = min m args.length)
    (hs : (os.filter fun o => o.types.length = n) = o :: p :: s)
    (simple : ∀ o ∈ os, ∀ t ∈ o.types, Simple t) (hd : d < n) (ht : Told (o :: p :: s) d)
    (hl : ∀ j < d, ¬ Told (o :: p :: s) j) (hv : args[d]? = some v)
    (hf : ChoiceFits R (o :: p :: s) d v) :
    resolve R os args = (do
      let xs ← arguments R (convert R) o args 0 d
      let (q, a) ← chooseSpec R (convert R) (toJs R) (o :: p :: s) d v
      let ys ← match a with
        | some a => do pure (a :: (← arguments R (convert R) q args (d + 1) n))
        | none => arguments R (convert R) q args d n
      pure (q, xs ++ ys)) := by
  have hs' : os.filter (fun o => o.types.length == n) = o :: p :: s := by
    rw [← hs]; exact List.filter_congr fun x _ => by simp [BEq.beq]
  have hmem : ∀ x ∈ o :: p :: s, x ∈ os ∧ x.types.length = n := by
    intro x hx
    rw [← hs] at hx
    have := List.mem_filter.mp hx
    exact ⟨this.1, by simpa using this.2⟩
  have hdi := (distIndex_eq (d := d) (n := n) (fun x hx => simple x (hmem x hx).1)
    (fun x hx => (hmem x hx).2) (by simp)).mpr ⟨hd, ht, hl⟩
  unfold resolve
  simp only [maxArg_eq hm, ← hn, hs', hdi, hv]
  rw [convArgs_eq R o args d 0 (by omega), Nat.zero_add]
  refine bind_congr' .any fun xs _ => ?_
  rw [choose_eq R _ d v hf, bind_assoc']
  refine bind_congr' .any fun r _ => ?_
  obtain ⟨q, a⟩ := r
  rw [pure_bind']
  cases a with
  | some a =>
    simp only
    rw [convArgs_eq R q args _ _ (by omega), show d + 1 + (n - (d + 1)) = n by omega]
    refine bind_congr' .any fun ys _ => ?_
    rw [pure_bind']
  | none =>
    simp only
    rw [convArgs_eq R q args _ _ (by omega), show d + (n - d) = n by omega]

theorem resolve_one (os : List Overload) (args : List V) {m n : Nat} {o : Overload}
    (hm : IsMax os m) (hn : n = min m args.length)
    (hs : (os.filter fun o => o.types.length = n) = [o]) :
    resolve R os args = (do
      let xs ← arguments R (convert R) o args 0 n
      pure (o, xs)) := by
  have hs' : os.filter (fun o => o.types.length == n) = [o] := by
    rw [← hs]; exact List.filter_congr fun x _ => by simp [BEq.beq]
  unfold resolve
  simp only [maxArg_eq hm, ← hn, hs']
  rw [convArgs_eq R o args n 0 (by omega), Nat.zero_add]

theorem resolve_none (os : List Overload) (args : List V) {m n : Nat}
    (hm : IsMax os m) (hn : n = min m args.length)
    (hs : (os.filter fun o => o.types.length = n) = []) :
    resolve R os args = throwType R := by
  have hs' : os.filter (fun o => o.types.length == n) = [] := by
    rw [← hs]; exact List.filter_congr fun x _ => by simp [BEq.beq]
  unfold resolve
  simp only [maxArg_eq hm, ← hn, hs']

/-! ## No panic -/

section
variable {α β : Type}

theorem Calm.ret {a : α} : Calm (pure a : M σ ε α) := by
  intro s s' e; cases e

theorem Calm.throw : Calm (throwType R : M σ ε α) := by
  intro s s' e; cases e

theorem Calm.limit {a b : Nat} : Calm (M.stop (.limit a b) : M σ ε α) := by
  intro s s' e; cases e

theorem Calm.bindE {m : M σ ε α} {f : α → M σ ε β} {P : α → Prop} (hm : Calm m)
    (hp : Ensures m P) (hf : ∀ a, P a → Calm (f a)) : Calm (m >>= f) := by
  intro s s' e
  change M.andThen m f s = _ at e
  unfold M.andThen at e
  rcases hs : m s with ⟨x | a, s''⟩
  · rw [hs] at e
    cases e
    exact hm s _ hs
  · rw [hs] at e
    exact hf a (hp s a s'' hs) s'' s' e

theorem Calm.bind {m : M σ ε α} {f : α → M σ ε β} (hm : Calm m) (hf : ∀ a, Calm (f a)) :
    Calm (m >>= f) := hm.bindE .any fun a _ => hf a
end

variable {R}

theorem fill_calm (hR : CalmRt R) (arr : V) (js : List V) : ∀ i, Calm (fill R arr i js) := by
  induction js with
  | nil => intro i; exact .ret
  | cons x xs ih =>
    intro i
    exact (hR.allocString _).bind fun _ => (hR.createData _ _ _).bind fun _ => ih _

mutual
theorem toJs_calm (hR : CalmRt R) : ∀ (x : Val V S N) (t : Ty), Calm (toJs R t x)
  | .undefined, t => by cases t <;> simp only [toJs] <;> first | exact .ret | exact .throw R
  | .null, t => by cases t <;> simp only [toJs] <;> first | exact .ret | exact .throw R
  | .boolean _, t => by cases t <;> simp only [toJs] <;> first | exact .ret | exact .throw R
  | .double _, t => by cases t <;> simp only [toJs] <;> first | exact .ret | exact .throw R
  | .domString _, t => by cases t <;> simp only [toJs] <;> first | exact .ret | exact .throw R
  | .object _, t => by cases t <;> simp only [toJs] <;> first | exact .ret | exact .throw R
  | .asyncSequence _ _ _, t => by
    cases t <;> simp only [toJs] <;> first | exact .ret | exact .throw R
  | .frozenArray _, t => by cases t <;> simp only [toJs] <;> first | exact .ret | exact .throw R
  | .union u x, t => by
    cases t <;> simp only [toJs] <;> first | exact toJs_calm hR x u | exact .throw R
  | .sequence xs, t => by
    cases t <;> simp only [toJs] <;> first
      | exact (toJsAll_calm hR xs _).bind fun _ => (hR.allocArray _).bind fun _ =>
          (fill_calm hR _ _ _).bind fun _ => .ret
      | exact .throw R
theorem toJsAll_calm (hR : CalmRt R) : ∀ (xs : List (Val V S N)) (t : Ty), Calm (toJsAll R t xs)
  | [], t => by simp only [toJsAll]; exact .ret
  | x :: xs, t => by
    simp only [toJsAll]
    exact (toJs_calm hR x t).bind fun _ => (toJsAll_calm hR xs t).bind fun _ => .ret
end

theorem createFrozen_calm (hR : CalmRt R) (t : Ty) (xs : List (Val V S N)) :
    Calm (createFrozen R t xs) := by
  refine (toJsAll_calm hR xs t).bind fun js => ?_
  split
  · exact .limit
  · exact (hR.allocArray _).bind fun _ => (fill_calm hR _ _ _).bind fun _ =>
      (hR.freeze _).bind fun _ => .ret

theorem collect_calm (hR : CalmRt R) (C : V → M σ ε (Val V S N)) (hC : ∀ v, Calm (C v)) (it : V) :
    ∀ n out, Calm (collect R C it n out) := by
  intro n
  induction n with
  | zero =>
    intro out
    refine (hR.step it).bind fun o => ?_
    cases o with
    | none => exact .ret
    | some _ => exact .limit
  | succ n ih =>
    intro out
    refine (hR.step it).bind fun o => ?_
    cases o with
    | none => exact .ret
    | some v => exact (hC v).bind fun x => ih _

theorem createSequence_calm (hR : CalmRt R) (C : V → M σ ε (Val V S N)) (hC : ∀ v, Calm (C v))
    (v m : V) : Calm (createSequence R C v m) := by
  unfold createSequence
  split
  · exact (hR.getIterator _ _).bind fun it => collect_calm hR C hC it _ _
  · exact .throw R

theorem methodOf_calm (hR : CalmRt R) (v : V) (y : Sym) : Calm (methodOf R v y) :=
  (hR.symbol y).bind fun _ => hR.getMethod _ _

theorem seqMethod_calm (hR : CalmRt R) (hi : Option V) (v : V) : Calm (seqMethod R hi v) := by
  unfold seqMethod
  cases hi with
  | some m => exact .ret
  | none =>
    simp only
    split
    · refine (methodOf_calm hR v _).bind fun o => ?_
      cases o with
      | none => exact .throw R
      | some m => exact .ret
    · exact .throw R

theorem asyncMethod_calm (hR : CalmRt R) (ha : Option (AHint V)) (v : V) :
    Calm (asyncMethod R ha v) := by
  unfold asyncMethod
  cases ha with
  | some m => exact .ret
  | none =>
    refine (methodOf_calm hR v _).bind fun o => ?_
    cases o with
    | some m => exact .ret
    | none =>
      refine (methodOf_calm hR v _).bind fun o => ?_
      cases o with
      | none => exact .throw R
      | some m => exact .ret

theorem pick_calm {t : Ty} {m : M σ ε (Val V S N)} (hm : Calm m) : Calm (pick t m) :=
  hm.bind fun _ => .ret

theorem union_calm (hR : CalmRt R) {types : List Ty} (und : Bool) (v : V)
    (C : Conv σ ε V S N {t : Ty // t ∈ types}) (hC : ∀ t a b w, Calm (C t a b w)) :
    Calm (unionWith R und C v) := by
  have h1 : Calm (unionString R C v) := by
    unfold unionString
    split
    · exact pick_calm (hC _ _ _ _)
    · exact .throw R
  have h2 : Calm (unionFrozen R C v) := by
    unfold unionFrozen
    split
    · refine (methodOf_calm hR v _).bind fun o => ?_
      cases o with
      | some m => exact pick_calm (hC _ _ _ _)
      | none => exact h1
    · exact h1
  have h3 : Calm (unionSequence R C v) := by
    unfold unionSequence
    split
    · refine (methodOf_calm hR v _).bind fun o => ?_
      cases o with
      | some m => exact pick_calm (hC _ _ _ _)
      | none => exact h2
    · exact h2
  have h4 : Calm (unionAsync R C v) := by
    unfold unionAsync
    split
    · split
      · refine (methodOf_calm hR v _).bind fun o => ?_
        cases o with
        | some m => exact pick_calm (hC _ _ _ _)
        | none =>
          refine (methodOf_calm hR v _).bind fun o => ?_
          cases o with
          | some m => exact pick_calm (hC _ _ _ _)
          | none => exact h3
      · exact h3
    · exact h3
  unfold unionWith
  split
  · exact .ret
  · split
    · exact .ret
    · split
      · exact h4
      · exact h1

theorem convH_calm (hR : CalmRt R) (n : Nat) : ∀ t, sizeOf t ≤ n → ∀ hi ha v,
    Calm (convH R t hi ha v) := by
  induction n with
  | zero => intro t ht; cases t <;> simp at ht
  | succ n ih =>
    intro t ht hi ha v
    cases t with
    | undefined =>
      rw [convH]
      split
      · exact .ret
      · exact .throw R
    | boolean => rw [convH]; exact (hR.toBoolean v).bind fun b => .ret
    | double => rw [convH]; exact (hR.toNumber v).bind fun b => .ret
    | domString => rw [convH]; exact (hR.toStr v).bind fun b => .ret
    | object =>
      rw [convH]
      split
      · exact .ret
      · exact .throw R
    | sequence e =>
      rw [convH]
      simp only [Ty.sequence.sizeOf_spec] at ht
      exact (seqMethod_calm hR hi v).bind fun m => (createSequence_calm hR _
        (fun w => ih e (by omega) none none w) v m).bind fun xs => .ret
    | frozenArray e =>
      rw [convH]
      simp only [Ty.frozenArray.sizeOf_spec] at ht
      exact (seqMethod_calm hR hi v).bind fun m => (createSequence_calm hR _
        (fun w => ih e (by omega) none none w) v m).bind fun xs =>
          (createFrozen_calm hR e xs).bind fun arr => .ret
    | asyncSequence e =>
      rw [convH]
      split
      · exact (asyncMethod_calm hR ha v).bind fun h => .ret
      · exact .throw R
    | union ms =>
      rw [convH]
      simp only [Ty.union.sizeOf_spec] at ht
      refine union_calm hR _ v _ fun u a b w => ih u.1 ?_ a b w
      have := flats_lt ms u.1 u.2
      omega
    | nullable e =>
      rw [convH]
      simp only [Ty.nullable.sizeOf_spec] at ht
      split
      · exact .ret
      · exact ih e (by omega) none none v

theorem convArgs_calm (hR : CalmRt R) (o : Overload) (args : List V) : ∀ n i,
    i + n ≤ args.length → Calm (convArgs R o args i n) := by
  intro n
  induction n with
  | zero => intro i _; exact .ret
  | succ n ih =>
    intro i h
    refine Calm.bind ?_ fun a => (ih (i + 1) (by omega)).bind fun as => .ret
    unfold convArg
    rw [List.getElem?_eq_getElem (by omega)]
    simp only
    split
    · exact .ret
    · exact (convH_calm hR _ _ (Nat.le_refl _) none none _).bind fun _ => .ret

theorem retain_calm (hR : CalmRt R) (s : List Overload) (i : Nat) (p : Ty → Bool) (hi : Option V)
    (ha : Option (AHint V)) (v : V) : Calm (retain R s i p hi ha v) := by
  unfold retain
  split
  · exact (convH_calm hR _ _ (Nat.le_refl _) hi ha v).bind fun _ => .ret
  · exact .throw R

theorem bySequence_calm (hR : CalmRt R) (s : List Overload) (i : Nat) (v : V) :
    Calm (bySequence R s i v) := by
  have hs : Calm (do
      let s' ← byString R s i
      pure (s', none) : M σ ε (List Overload × Option (Arg V S N))) := by
    refine Calm.bind ?_ fun _ => .ret
    unfold byString
    simp only
    split <;> split <;> first | exact .ret | exact .throw R
  unfold bySequence
  simp only
  split
  · refine (methodOf_calm hR v _).bind fun o => ?_
    cases o with
    | none => exact hs
    | some m =>
      simp only
      split <;> exact retain_calm hR _ _ _ _ _ _
  · exact hs

theorem choose_calm (hR : CalmRt R) (s : List Overload) (i : Nat) (v : V) :
    Calm (choose R s i v) := by
  unfold choose
  split
  · refine (methodOf_calm hR v _).bind fun o => ?_
    cases o with
    | some m => exact retain_calm hR _ _ _ _ _ _
    | none =>
      refine (methodOf_calm hR v _).bind fun o => ?_
      cases o with
      | some m => exact retain_calm hR _ _ _ _ _ _
      | none => exact bySequence_calm hR s i v
  · exact bySequence_calm hR s i v

theorem resolve_calm (hR : CalmRt R) (os : List Overload) (args : List V) :
    Calm (resolve R os args) := by
  unfold resolve
  simp only
  generalize hn : min (maxArg os) args.length = n
  have hle : n ≤ args.length := by omega
  rcases hl : os.filter (fun o => o.types.length == n) with _ | ⟨o, _ | ⟨p, s⟩⟩ <;>
    simp only [hl]
  · exact .throw R
  · exact (convArgs_calm hR o args n 0 (by omega)).bind fun _ => .ret
  · cases hd : distIndex (o :: p :: s) with
    | none => exact .throw R
    | some d =>
      have hlt : d < n := by
        have h1 := (distIndex_some hd).1
        have h2 : o.types.length = n := by
          have := (List.mem_filter.mp (by rw [hl]; simp :
            o ∈ os.filter (fun o => o.types.length == n))).2
          simpa using this
        simpa [h2] using h1
      refine (convArgs_calm hR o args d 0 (by omega)).bind fun xs => ?_
      rw [List.getElem?_eq_getElem (by omega)]
      refine (choose_calm hR _ d _).bindE (choose_ensures R _ d _) fun r hr => ?_
      obtain ⟨q, hq, e, -⟩ := hr
      obtain ⟨r1, r2⟩ := r
      simp only at e
      subst e
      cases r2 with
      | some a => exact (convArgs_calm hR q args _ _ (by omega)).bind fun _ => .ret
      | none => exact (convArgs_calm hR q args _ _ (by omega)).bind fun _ => .ret

end Verif.WebIdl
