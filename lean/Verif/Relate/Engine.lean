import Verif.Relate.Spec

namespace Verif.Relate

variable {C : Ctx}

/-! ## The largest relation -/

theorem holds_mono {R R' : Id → Id → Mode → Prop} (h : ∀ x y n, R x y n → R' x y n) :
    ∀ {g : Goal}, Holds R g → Holds R' g
  | .yes, _ => trivial
  | .no, w => w.elim
  | .ask _ _ _ _, w => h _ _ _ w
  | .and _ _, w => ⟨holds_mono h w.1, holds_mono h w.2⟩
  | .or _ _, .inl w => .inl (holds_mono h w)
  | .or _ _, .inr w => .inr (holds_mono h w)

theorem Related.holds {a b : Id} {m : Mode} (h : Related C a b m) :
    Holds (Related C) (rules C a b m) := by
  obtain ⟨R, hR, w⟩ := h
  exact holds_mono (fun x y n r => ⟨R, hR, r⟩) (hR _ _ _ w)

theorem related_of_holds {a b : Id} {m : Mode} (h : Holds (Related C) (rules C a b m)) :
    Related C a b m := by
  refine ⟨fun x y n => Holds (Related C) (rules C x y n), ?_, h⟩
  intro x y n hx
  exact holds_mono (fun _ _ _ r => r.holds) hx

theorem related_iff {a b : Id} {m : Mode} :
    Related C a b m ↔ Holds (Related C) (rules C a b m) :=
  ⟨Related.holds, related_of_holds⟩

/-! ## Running a goal -/

/-- A property of answers and states that every answer to a question has, a run of a goal has. -/
theorem runGoal_no {R : Id → Id → Mode → Prop} {P : St → Prop}
    {ask : Nat → Id → Id → Mode → St → Bool × St}
    (hask : ∀ i a b m st, P st → P (ask i a b m st).2 ∧ ((ask i a b m st).1 = false → ¬ R a b m)) :
    ∀ (g : Goal) (st : St), P st →
      P (runGoal ask g st).2 ∧ ((runGoal ask g st).1 = false → ¬ Holds R g)
  | .yes, st, hp => ⟨hp, fun h => (by cases h)⟩
  | .no, st, hp => ⟨hp, fun _ h => h⟩
  | .ask i a b m, st, hp => hask i a b m st hp
  | .and g h, st, hp => by
    have ig := runGoal_no hask g st hp
    rw [runGoal]
    generalize hr : runGoal ask g st = r at ig
    obtain ⟨b, st'⟩ := r
    cases b with
    | true =>
      have ih := runGoal_no hask h st' ig.1
      exact ⟨ih.1, fun e w => ih.2 e w.2⟩
    | false => exact ⟨ig.1, fun _ w => ig.2 rfl w.1⟩
  | .or g h, st, hp => by
    have ig := runGoal_no hask g st hp
    rw [runGoal]
    generalize hr : runGoal ask g st = r at ig
    obtain ⟨b, st'⟩ := r
    cases b with
    | true => exact ⟨ig.1, fun e => (by cases e)⟩
    | false =>
      have ih := runGoal_no hask h st' ig.1
      exact ⟨ih.1, fun e w => w.elim (ig.2 rfl) (ih.2 e)⟩

theorem runGoal_exact {R : Id → Id → Mode → Prop} {P : St → Prop}
    {ask : Nat → Id → Id → Mode → St → Bool × St} :
    ∀ (g : Goal) (st : St),
      (∀ i a b m st, (i, a, b, m) ∈ g.questions → P st →
        P (ask i a b m st).2 ∧ ((ask i a b m st).1 = true ↔ R a b m)) → P st →
      P (runGoal ask g st).2 ∧ ((runGoal ask g st).1 = true ↔ Holds R g)
  | .yes, st, _, hp => ⟨hp, by simp [runGoal, Holds]⟩
  | .no, st, _, hp => ⟨hp, by simp [runGoal, Holds]⟩
  | .ask i a b m, st, hask, hp => hask i a b m st (by simp [Goal.questions]) hp
  | .and g h, st, hask, hp => by
    have ig := runGoal_exact g st (fun i a b m st hq => hask i a b m st (by simp [Goal.questions, hq])) hp
    rw [runGoal]
    generalize hr : runGoal ask g st = r at ig
    obtain ⟨b, st'⟩ := r
    cases b with
    | true =>
      have ih := runGoal_exact h st'
        (fun i a b m st hq => hask i a b m st (by simp [Goal.questions, hq])) ig.1
      refine ⟨ih.1, ih.2.trans ?_⟩
      have : Holds R g := ig.2.1 rfl
      simp [Holds, this]
    | false =>
      refine ⟨ig.1, ?_⟩
      have : ¬ Holds R g := fun w => by simpa using ig.2.2 w
      simp [Holds, this]
  | .or g h, st, hask, hp => by
    have ig := runGoal_exact g st (fun i a b m st hq => hask i a b m st (by simp [Goal.questions, hq])) hp
    rw [runGoal]
    generalize hr : runGoal ask g st = r at ig
    obtain ⟨b, st'⟩ := r
    cases b with
    | true =>
      refine ⟨ig.1, ?_⟩
      have : Holds R g := ig.2.1 rfl
      simp [Holds, this]
    | false =>
      have ih := runGoal_exact h st'
        (fun i a b m st hq => hask i a b m st (by simp [Goal.questions, hq])) ig.1
      refine ⟨ih.1, ih.2.trans ?_⟩
      have : ¬ Holds R g := fun w => by simpa using ig.2.2 w
      simp [Holds, this]

/-! ## No wrong no -/

/-- What the answer yes under a key means. -/
def KeyMeans (C : Ctx) (k : Key) : Prop :=
  match k.kind with
  | .assignable => Related C k.src k.dst k.mode
  | .comparable =>
    if (isParam (C.store.kind k.src)).isSome || (isParam (C.store.kind k.dst)).isSome then
      (isParam (C.store.kind k.src)).isSome ∧
        isParam (C.store.kind k.src) = isParam (C.store.kind k.dst)
    else Related C k.src k.dst k.mode ∧ Related C k.dst k.src k.mode
  | .strictSubtype => Related C k.src k.dst k.mode ∧ ¬ Related C k.dst k.src k.mode

/-- No entry of the cache says no wrongly (strict subtypes aside). -/
def NoLie (C : Ctx) (st : St) : Prop :=
  ∀ k, k.kind ≠ .strictSubtype → st.cache k = some false → ¬ KeyMeans C k

theorem noLie_insert {k : Key} {b : Bool} {st : St} (h : NoLie C st)
    (hk : k.kind ≠ .strictSubtype → b = false → ¬ KeyMeans C k) : NoLie C (insert C k b st) := by
  intro x hx e
  simp only [insert] at e
  split at e
  · cases e
  · split at e
    · rename_i e'
      subst e'
      exact hk hx (Option.some.inj e)
    · exact h x hx e

theorem outcome_no {P : St → Prop} {ask deep : Nat → Id → Id → Mode → St → Bool × St}
    (hask : ∀ i a b m st, P st →
      P (ask i a b m st).2 ∧ ((ask i a b m st).1 = false → ¬ Related C a b m))
    (hdeep : ∀ i a b m st, P st →
      P (deep i a b m st).2 ∧ ((deep i a b m st).1 = false → ¬ Related C a b m))
    (k : Key) (st : St) (hp : P st) :
    P (outcome C ask deep k st).2 ∧
      (k.kind ≠ .strictSubtype → (outcome C ask deep k st).1 = false → ¬ KeyMeans C k) := by
  obtain ⟨a, b, r, m⟩ := k
  cases r with
  | assignable =>
    have := runGoal_no hask (rules C a b m) st hp
    refine ⟨this.1, fun _ e w => this.2 e (Related.holds w)⟩
  | comparable =>
    simp only [outcome, KeyMeans]
    split
    · refine ⟨hp, fun _ e w => ?_⟩
      rw [w.1, Bool.true_and] at e
      exact absurd w.2 (by simpa using e)
    · have h1 := runGoal_no hdeep (rules C a b m) st hp
      generalize runGoal deep (rules C a b m) st = r at h1
      obtain ⟨x, st'⟩ := r
      cases x with
      | false => exact ⟨h1.1, fun _ _ w => h1.2 rfl w.1.holds⟩
      | true =>
        have h2 := runGoal_no hdeep (rules C b a m) st' h1.1
        exact ⟨h2.1, fun _ e w => h2.2 e w.2.holds⟩
  | strictSubtype =>
    simp only [outcome]
    have h1 := runGoal_no hdeep (rules C a b m) st hp
    generalize runGoal deep (rules C a b m) st = r at h1
    obtain ⟨x, st'⟩ := r
    cases x with
    | false => exact ⟨h1.1, fun e => absurd rfl e⟩
    | true =>
      have h2 := runGoal_no hdeep (rules C b a m) st' h1.1
      exact ⟨h2.1, fun e => absurd rfl e⟩

theorem relate_no : ∀ (f rem : Nat) (k : Key) (st : St), NoLie C st →
    NoLie C (relate C f rem k st).2 ∧
      (k.kind ≠ .strictSubtype → (relate C f rem k st).1 = false → ¬ KeyMeans C k)
  | 0, _, _, _, h => ⟨h, fun _ e => (by cases e)⟩
  | f + 1, rem, k, st, h => by
    rw [relate]
    split
    · exact ⟨h, fun _ e => (by cases e)⟩
    split
    · rename_i b hb
      exact ⟨h, fun hk e => h k hk (by rw [hb]; exact congrArg some e)⟩
    split
    · exact ⟨h, fun _ e => (by cases e)⟩
    split
    · exact ⟨h, fun _ e => (by cases e)⟩
    dsimp only
    split
    · exact ⟨h, fun _ e => (by cases e)⟩
    have hq : ∀ (r : Nat → Nat) i a b m st, NoLie C st →
        NoLie C (relate C f (r i) ⟨a, b, .assignable, m⟩ st).2 ∧
          ((relate C f (r i) ⟨a, b, .assignable, m⟩ st).1 = false → ¬ Related C a b m) := by
      intro r i a b m st hst
      have := relate_no f (r i) ⟨a, b, .assignable, m⟩ st hst
      exact ⟨this.1, this.2 (by simp)⟩
    have := outcome_no (C := C) (P := NoLie C) (hq (fun i => rem - 1 - i))
      (hq (fun i => rem - 1 - 1 - i)) k
      { st with
        steps := if C.limits.steps.isSome then st.steps + 1 else st.steps
        busy := k :: st.busy } h
    exact ⟨fun x hx => noLie_insert this.1 this.2 x hx, this.2⟩

/-- The meaning of an operation is that of its key. -/
theorem means_key {op : Op} {k : Key} (h : op.key = some k) : Means C op ↔ KeyMeans C k := by
  cases op with
  | assignable a b => cases h; rfl
  | assignableRaw a b => cases h; rfl
  | comparable a b =>
    cases h
    simp only [Means, KeyMeans]
    cases isParam (C.store.kind a) <;> cases isParam (C.store.kind b) <;> simp
  | strictSubtype a b => cases h; rfl
  | clear => cases h

theorem perform_no (op : Op) (st : St) (h : NoLie C st) : NoLie C (perform C op st).2 := by
  rw [perform]
  split
  · exact (relate_no C.limits.depth C.limits.depth _
      { st with steps := if C.limits.steps.isSome then 0 else st.steps } h).1
  · intro k _ e; cases e

theorem foldl_no : ∀ (ops : List Op) (st : St), NoLie C st →
    NoLie C (ops.foldl (fun st op => (perform C op st).2) st)
  | [], _, h => h
  | op :: ops, st, h => foldl_no ops _ (perform_no op st h)

theorem after_no (ops : List Op) : NoLie C (after C ops) :=
  foldl_no ops {} (fun _ _ e => (by cases e))

/-! ## Exact answers -/

/-- Every entry of the cache is right. -/
def Exact (C : Ctx) (st : St) : Prop := ∀ k b, st.cache k = some b → (b = true ↔ KeyMeans C k)

theorem exact_insert {k : Key} {b : Bool} {st : St} (h : Exact C st)
    (hk : b = true ↔ KeyMeans C k) : Exact C (insert C k b st) := by
  intro x c e
  simp only [insert] at e
  split at e
  · cases e
  · split at e
    · rename_i e'
      subst e'
      cases e
      exact hk
    · exact h x c e

theorem not_within_zero {a b : Id} {m : Mode} : ¬ Within C 0 a b m := fun h => by cases h

/-- The key is asked about below `k`: it takes fewer levels. -/
def Below (C : Ctx) (a b : Id) (m : Mode) (k : Key) : Prop :=
  k.kind = .assignable →
    (∃ n, Within C n k.src k.dst k.mode) ∧
      ∀ n, Within C (n + 1) k.src k.dst k.mode → ∃ n', n' ≤ n ∧ Within C n' a b m

theorem below_self {k : Key} (hk : k.kind = .assignable) (h : Below C k.src k.dst k.mode k) :
    False := by
  obtain ⟨⟨n, hn⟩, hd⟩ := h hk
  induction n using Nat.strongRecOn with
  | ind n ih =>
    cases n with
    | zero => exact not_within_zero hn
    | succ n =>
      obtain ⟨n', hle, hw⟩ := hd n hn
      exact ih n' (by omega) hw

theorem below_question {a b : Id} {m : Mode} {i x y k'} {k : Key}
    (h : Below C a b m k) (hw : ∃ n, Within C n a b m)
    (hq : (i, x, y, k') ∈ (rules C a b m).questions) : Below C x y k' k := by
  intro hk
  obtain ⟨h1, h2⟩ := h hk
  refine ⟨h1, ?_⟩
  intro n hn
  obtain ⟨n', hle, hw'⟩ := h2 n hn
  cases hw' with
  | mk e b => exact ⟨_, by omega, b _ _ _ _ hq⟩

theorem below_top {a b : Id} {m : Mode} {i x y k'} (hw : ∃ n, Within C n a b m)
    (hq : (i, x, y, k') ∈ (rules C a b m).questions) :
    Below C x y k' ⟨a, b, .assignable, m⟩ := by
  intro _
  refine ⟨hw, ?_⟩
  intro n hn
  cases hn with
  | mk e b => exact ⟨_, by omega, b _ _ _ _ hq⟩

/-- The questions of the rules have their levels. -/
theorem Within.question {n : Nat} {a b : Id} {m : Mode} {i x y k} (h : Within C n a b m)
    (hq : (i, x, y, k) ∈ (rules C a b m).questions) : Within C (n - 1 - i) x y k := by
  cases h with
  | mk e b => exact b _ _ _ _ hq

/-- The state of a context between questions of types that are small: exact and with the given keys
in progress. -/
def Fine (C : Ctx) (busy : List Key) (st : St) : Prop := Exact C st ∧ st.busy = busy

variable (nosteps : C.limits.steps = none) (room : C.limits.depth ≤ C.limits.inProgress)

include nosteps room

theorem relate_exact : ∀ (f rem : Nat) (a b : Id) (m : Mode) (busy : List Key) (st : St),
    rem ≤ f → Within C rem a b m → busy.length + rem ≤ C.limits.depth →
    (∀ k ∈ busy, Below C a b m k) → Fine C busy st →
    Fine C busy (relate C f rem ⟨a, b, .assignable, m⟩ st).2 ∧
      ((relate C f rem ⟨a, b, .assignable, m⟩ st).1 = true ↔ Related C a b m)
  | 0, rem, a, b, m, busy, st, hf, hw, _, _, _ => by
    obtain rfl : rem = 0 := by omega
    exact (not_within_zero hw).elim
  | f + 1, rem, a, b, m, busy, st, hf, hw, hlen, hbelow, hst => by
    have hrem : rem ≠ 0 := fun e => not_within_zero (e ▸ hw)
    rw [relate]
    rw [if_neg hrem]
    split
    · rename_i c hc
      exact ⟨hst, hst.1 _ _ hc⟩
    rw [if_neg (fun e => below_self (k := ⟨a, b, .assignable, m⟩) rfl
      (hbelow _ (hst.2 ▸ e)))]
    rw [if_neg (by simp [nosteps])]
    dsimp only
    rw [if_neg (by rw [hst.2]; omega)]
    have := runGoal_exact (R := Related C) (P := Fine C (⟨a, b, .assignable, m⟩ :: busy))
      (ask := fun i a b m => relate C f (rem - 1 - i) ⟨a, b, .assignable, m⟩)
      (rules C a b m)
      { st with
        steps := if C.limits.steps.isSome then st.steps + 1 else st.steps
        busy := ⟨a, b, .assignable, m⟩ :: st.busy }
      (by
        intro i x y n st' hq hst'
        refine relate_exact f (rem - 1 - i) x y n _ st' (by omega) (hw.question hq) ?_ ?_ hst'
        · simp only [List.length_cons]; omega
        · intro k hk
          rcases List.mem_cons.1 hk with e | hk
          · exact e ▸ below_top ⟨rem, hw⟩ hq
          · exact below_question (hbelow k hk) ⟨rem, hw⟩ hq)
      ⟨hst.1, by simp [hst.2]⟩
    refine ⟨⟨fun x hx => exact_insert (C := C) this.1.1 (this.2.trans related_iff.symm) x hx, ?_⟩,
      this.2.trans related_iff.symm⟩
    have hb := this.1.2
    simp only [outcome, insert]
    rw [hb]
    simp

theorem relate_exact_top (k : Key) (st : St) (hst : Fine C [] st)
    (hw : match k.kind with
      | .assignable => Within C C.limits.depth k.src k.dst k.mode
      | _ => Within C (C.limits.depth - 1) k.src k.dst k.mode ∧
          Within C (C.limits.depth - 1) k.dst k.src k.mode) :
    Fine C [] (relate C C.limits.depth C.limits.depth k st).2 ∧
      ((relate C C.limits.depth C.limits.depth k st).1 = true ↔ KeyMeans C k) := by
  obtain ⟨a, b, r, m⟩ := k
  by_cases hr : r = .assignable
  · subst hr
    exact relate_exact nosteps room _ _ a b m [] st (Nat.le_refl _) hw (by simp) (by simp) hst
  have hw' : Within C (C.limits.depth - 1) a b m ∧ Within C (C.limits.depth - 1) b a m := by
    cases r with
    | assignable => exact absurd rfl hr
    | comparable => exact hw
    | strictSubtype => exact hw
  obtain ⟨d, hd⟩ : ∃ d, C.limits.depth = d + 2 := by
    have h1 := hw'.1
    generalize hz : C.limits.depth - 1 = z at h1
    cases h1
    exact ⟨C.limits.depth - 2, by omega⟩
  rw [hd, relate]
  rw [if_neg (by omega)]
  split
  · rename_i c hc
    exact ⟨hst, hst.1 _ _ hc⟩
  rw [if_neg (by simp [hst.2])]
  rw [if_neg (by simp [nosteps])]
  dsimp only
  rw [if_neg (by rw [hst.2]; simp only [List.length_nil]; omega)]
  have hgoal : ∀ x y st', Within C (C.limits.depth - 1) x y m → Fine C [⟨a, b, r, m⟩] st' →
      Fine C [⟨a, b, r, m⟩]
        (runGoal (fun i a b m => relate C (d + 1) (d + 2 - 1 - 1 - i) ⟨a, b, .assignable, m⟩)
          (rules C x y m) st').2 ∧
      ((runGoal (fun i a b m => relate C (d + 1) (d + 2 - 1 - 1 - i) ⟨a, b, .assignable, m⟩)
          (rules C x y m) st').1 = true ↔ Related C x y m) := by
    intro x y st' hxy hst'
    have := runGoal_exact (R := Related C) (P := Fine C [⟨a, b, r, m⟩])
      (ask := fun i a b m => relate C (d + 1) (d + 2 - 1 - 1 - i) ⟨a, b, .assignable, m⟩)
      (rules C x y m) st'
      (by
        intro i u v n st'' hq hst''
        have hwq := hxy.question hq
        rw [hd] at hwq
        refine relate_exact nosteps room (d + 1) (d + 2 - 1 - 1 - i) u v n _ st'' (by omega) hwq ?_ ?_ hst''
        · simp only [List.length_singleton]; omega
        · intro k hk hk'
          obtain rfl := List.mem_singleton.1 hk
          exact absurd hk' hr)
      hst'
    exact ⟨this.1, this.2.trans related_iff.symm⟩
  have main : Fine C [⟨a, b, r, m⟩] (outcome C
        (fun i a b m => relate C (d + 1) (d + 2 - 1 - i) ⟨a, b, .assignable, m⟩)
        (fun i a b m => relate C (d + 1) (d + 2 - 1 - 1 - i) ⟨a, b, .assignable, m⟩) ⟨a, b, r, m⟩
        { st with
          steps := if C.limits.steps.isSome then st.steps + 1 else st.steps
          busy := ⟨a, b, r, m⟩ :: st.busy }).2 ∧
      ((outcome C
        (fun i a b m => relate C (d + 1) (d + 2 - 1 - i) ⟨a, b, .assignable, m⟩)
        (fun i a b m => relate C (d + 1) (d + 2 - 1 - 1 - i) ⟨a, b, .assignable, m⟩) ⟨a, b, r, m⟩
        { st with
          steps := if C.limits.steps.isSome then st.steps + 1 else st.steps
          busy := ⟨a, b, r, m⟩ :: st.busy }).1 = true ↔ KeyMeans C ⟨a, b, r, m⟩) := by
    have h0 : Fine C [⟨a, b, r, m⟩]
        { st with
          steps := if C.limits.steps.isSome then st.steps + 1 else st.steps
          busy := ⟨a, b, r, m⟩ :: st.busy } := ⟨hst.1, by simp [hst.2]⟩
    cases r with
    | assignable => exact absurd rfl hr
    | comparable =>
      simp only [outcome, KeyMeans]
      split
      · refine ⟨h0, ?_⟩
        simp
      · have h1 := hgoal a b _ hw'.1 h0
        generalize runGoal _ (rules C a b m) _ = r1 at h1
        obtain ⟨x, st'⟩ := r1
        cases x with
        | false =>
          refine ⟨h1.1, ?_⟩
          have : ¬ Related C a b m := fun w => by simpa using h1.2.2 w
          simp [this]
        | true =>
          have h2 := hgoal b a st' hw'.2 h1.1
          have : Related C a b m := h1.2.1 rfl
          refine ⟨h2.1, h2.2.trans ?_⟩
          simp [this]
    | strictSubtype =>
      simp only [outcome, KeyMeans]
      have h1 := hgoal a b _ hw'.1 h0
      generalize runGoal _ (rules C a b m) _ = r1 at h1
      obtain ⟨x, st'⟩ := r1
      cases x with
      | false =>
        refine ⟨h1.1, ?_⟩
        have : ¬ Related C a b m := fun w => by simpa using h1.2.2 w
        simp [this]
      | true =>
        have h2 := hgoal b a st' hw'.2 h1.1
        have : Related C a b m := h1.2.1 rfl
        refine ⟨h2.1, ?_⟩
        rw [← h2.2]
        simp [this]
  refine ⟨⟨fun x hx => exact_insert (C := C) main.1.1 main.2 x hx, ?_⟩, main.2⟩
  have hb := main.1.2
  simp only [insert]
  rw [hb]
  simp

theorem perform_exact (op : Op) (st : St) (hop : Small C op) (hst : Fine C [] st) :
    Fine C [] (perform C op st).2 ∧ ((perform C op st).1 = true ↔ Means C op) := by
  cases op with
  | clear => exact ⟨⟨fun _ _ e => (by cases e), hst.2⟩, by simp [perform, Op.key, Means]⟩
  | assignable a b =>
    exact relate_exact_top nosteps room ⟨a, b, .assignable, {}⟩ _ ⟨hst.1, hst.2⟩ hop
  | assignableRaw a b =>
    exact relate_exact_top nosteps room ⟨a, b, .assignable, { skip := true }⟩ _ ⟨hst.1, hst.2⟩ hop
  | comparable a b =>
    have := relate_exact_top nosteps room ⟨a, b, .comparable, {}⟩
      { st with steps := if C.limits.steps.isSome then 0 else st.steps } ⟨hst.1, hst.2⟩ hop
    exact ⟨this.1, this.2.trans (means_key (op := .comparable a b) rfl).symm⟩
  | strictSubtype a b =>
    exact relate_exact_top nosteps room ⟨a, b, .strictSubtype, {}⟩ _ ⟨hst.1, hst.2⟩ hop

theorem foldl_exact : ∀ (ops : List Op) (st : St), (∀ op ∈ ops, Small C op) → Fine C [] st →
    Fine C [] (ops.foldl (fun st op => (perform C op st).2) st)
  | [], _, _, h => h
  | op :: ops, st, hs, h => by
    refine foldl_exact ops _ (fun o ho => hs o (List.mem_cons_of_mem _ ho)) ?_
    exact (perform_exact nosteps room op st (hs op (by simp)) h).1

theorem after_exact (ops : List Op) (h : ∀ op ∈ ops, Small C op) : Fine C [] (after C ops) :=
  foldl_exact nosteps room ops {} h ⟨fun _ _ e => (by cases e), rfl⟩

end Verif.Relate
