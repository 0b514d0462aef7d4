import Verif.Relate.Engine

/-! Lemmas for the laws of assignability (C83). -/

namespace Verif.Relate

variable {C : Ctx}

/-! ## The rules, taken apart -/

theorem holds_all {R : Id → Id → Mode → Prop} : ∀ {gs : List Goal},
    Holds R (.all gs) ↔ ∀ g ∈ gs, Holds R g
  | [] => by simp [Goal.all, Holds]
  | g :: gs => by simp [Goal.all, Holds, holds_all (gs := gs)]

theorem holds_any {R : Id → Id → Mode → Prop} : ∀ {gs : List Goal},
    Holds R (.any gs) ↔ ∃ g ∈ gs, Holds R g
  | [] => by simp [Goal.any, Holds]
  | g :: gs => by simp [Goal.any, Holds, holds_any (gs := gs)]

theorem holds_ofBool {R : Id → Id → Mode → Prop} {b : Bool} : Holds R (.ofBool b) ↔ b = true := by
  cases b <;> simp [Goal.ofBool, Holds]

theorem related_refl (a : Id) (m : Mode) : Related C a a m := by
  apply related_of_holds
  simp [rules, assignable, Holds]

theorem byVariance_left {S : Store} {src dst : Kind} {m : Mode} (h : ∀ d as, src ≠ .ref d as) :
    byVariance S src dst m = ([], false) := by
  cases src <;> first | rfl | exact absurd rfl (h _ _)

theorem byVariance_right {S : Store} {src dst : Kind} {m : Mode} (h : ∀ d as, dst ≠ .ref d as) :
    byVariance S src dst m = ([], false) := by
  cases src <;> cases dst <;> first | rfl | exact absurd rfl (h _ _)

/-- A pair of which one is no reference and both are normal is answered by the later rules. -/
theorem holds_normal {R : Id → Id → Mode → Prop} {a b : Id} {m : Mode} (hab : a ≠ b)
    (hv : byVariance C.store (C.store.kind a) (C.store.kind b) m = ([], false))
    (ha : C.store.normalize a = a) (hb : C.store.normalize b = b) :
    Holds R (rules C a b m) ↔
      match special C.store C.opts (C.store.kind a) (C.store.kind b) with
      | some r => r = true
      | none => Holds R (expanded C.store C.opts C.limits.keyDepth a b
          (C.store.kind a) (C.store.kind b) m) := by
  simp only [rules, assignable, if_neg hab, hv, Goal.all, Holds, true_and, ha, hb]
  simp only [ne_eq, not_true_eq_false, decide_false, Bool.or_self, Bool.and_false,
    Bool.false_eq_true, if_false]
  split <;> simp_all [holds_ofBool]

theorem holds_unnormal {R : Id → Id → Mode → Prop} {a b : Id} (hab : a ≠ b)
    (hv : byVariance C.store (C.store.kind a) (C.store.kind b) {} = ([], false))
    (h : C.store.normalize a ≠ a ∨ C.store.normalize b ≠ b) :
    Holds R (rules C a b {}) ↔ R (C.store.normalize a) (C.store.normalize b) {} := by
  simp only [rules, assignable, if_neg hab, hv, Goal.all, Holds, true_and]
  have : ((decide (C.store.normalize a ≠ a) || decide (C.store.normalize b ≠ b)) = true) := by
    simpa using h
  rw [this]
  simp [Holds]

/-- With types that normalize at once, it is enough to look at the normal forms. -/
theorem related_normal (idem : ∀ t, C.store.normalize (C.store.normalize t) = C.store.normalize t)
    {a b : Id}
    (hv : byVariance C.store (C.store.kind a) (C.store.kind b) {} = ([], false))
    (hv' : byVariance C.store (C.store.kind (C.store.normalize a))
      (C.store.kind (C.store.normalize b)) {} = ([], false))
    (h : special C.store C.opts (C.store.kind (C.store.normalize a))
      (C.store.kind (C.store.normalize b)) = some true) : Related C a b {} := by
  by_cases hab : a = b
  · exact hab ▸ related_refl a {}
  have hn : Related C (C.store.normalize a) (C.store.normalize b) {} := by
    by_cases hn : C.store.normalize a = C.store.normalize b
    · exact hn ▸ related_refl _ {}
    · exact related_of_holds ((holds_normal hn hv' (idem a) (idem b)).2 (by rw [h]))
  by_cases hq : C.store.normalize a ≠ a ∨ C.store.normalize b ≠ b
  · exact related_of_holds ((holds_unnormal hab hv hq).2 hn)
  · have ha : C.store.normalize a = a := Decidable.byContradiction fun e => hq (.inl e)
    have hb : C.store.normalize b = b := Decidable.byContradiction fun e => hq (.inr e)
    rwa [ha, hb] at hn

theorem special_unknown {S : Store} {o : Opts} (k : Kind) : special S o k .unknown = some true := by
  unfold special
  split
  · rfl
  · cases k <;> simp

theorem special_any {S : Store} {o : Opts} (k : Kind) : special S o k .any = some true := by
  unfold special
  split
  · rfl
  · cases k <;> simp

theorem special_from_any {S : Store} {o : Opts} (k : Kind) : special S o .any k = some true := by
  unfold special
  split
  · rfl
  · cases k <;> simp

theorem special_never {S : Store} {o : Opts} (k : Kind) : special S o .never k = some true := by
  unfold special
  split
  · rfl
  · cases k <;> simp

/-! ## Pairs that ask no question -/

theorem relate_busy : ∀ (f rem : Nat) (k : Key) (st : St), (relate C f rem k st).2.busy = st.busy
  | 0, _, _, _ => rfl
  | f + 1, rem, k, st => by
    rw [relate]
    split
    · rfl
    split
    · rfl
    split
    · rfl
    split
    · rfl
    dsimp only
    split
    · rfl
    have hq : ∀ (X : List Key) (r : Nat → Nat) i a b m st, st.busy = X →
        (relate C f (r i) ⟨a, b, .assignable, m⟩ st).2.busy = X ∧
          ((relate C f (r i) ⟨a, b, .assignable, m⟩ st).1 = false → ¬ False) := by
      intro X r i a b m st h
      exact ⟨(relate_busy f (r i) _ st).trans h, fun _ e => e⟩
    have hrun : ∀ (r : Nat → Nat) g st,
        (runGoal (fun i a b m => relate C f (r i) ⟨a, b, .assignable, m⟩) g st).2.busy = st.busy :=
      fun r g st => (runGoal_no (R := fun _ _ _ => False) (P := fun s => s.busy = st.busy)
        (hq st.busy r) g st rfl).1
    have hout : ∀ st, (outcome C
        (fun i a b m => relate C f (rem - 1 - i) ⟨a, b, .assignable, m⟩)
        (fun i a b m => relate C f (rem - 1 - 1 - i) ⟨a, b, .assignable, m⟩) k st).2.busy =
          st.busy := by
      intro st
      obtain ⟨a, b, r, m⟩ := k
      have h2 := fun g st => hrun (fun i => rem - 1 - 1 - i) g st
      cases r with
      | assignable => exact hrun (fun i => rem - 1 - i) _ st
      | comparable =>
        simp only [outcome]
        split
        · rfl
        · have h3 := h2 (rules C a b m) st
          generalize runGoal _ (rules C a b m) st = r1 at h3
          obtain ⟨x, st'⟩ := r1
          cases x with
          | false => exact h3
          | true => exact (h2 (rules C b a m) st').trans h3
      | strictSubtype =>
        simp only [outcome]
        have h3 := h2 (rules C a b m) st
        generalize runGoal _ (rules C a b m) st = r1 at h3
        obtain ⟨x, st'⟩ := r1
        cases x with
        | false => exact h3
        | true => exact (h2 (rules C b a m) st').trans h3
    simp only [insert]
    rw [hout]
    simp

theorem perform_busy (op : Op) (st : St) : (perform C op st).2.busy = st.busy := by
  rw [perform]
  split
  · exact relate_busy _ _ _ _
  · rfl

theorem after_busy (ops : List Op) : (after C ops).busy = [] := by
  suffices ∀ (ops : List Op) (st : St),
      (ops.foldl (fun st op => (perform C op st).2) st).busy = st.busy from this ops {}
  intro ops
  induction ops with
  | nil => intro st; rfl
  | cons op ops ih => intro st; exact (ih _).trans (perform_busy op st)

/-- The rules decide the pair without a question. -/
def Leaf (C : Ctx) (k : Key) : Prop :=
  k.kind = .assignable ∧ (rules C k.src k.dst k.mode).questions = []

/-- The cache is right about pairs that ask no question. -/
def LeafExact (C : Ctx) (st : St) : Prop :=
  ∀ k b, Leaf C k → st.cache k = some b → (b = true ↔ Related C k.src k.dst k.mode)

theorem runGoal_leaf {R : Id → Id → Mode → Prop} {ask : Nat → Id → Id → Mode → St → Bool × St}
    {g : Goal} (h : g.questions = []) (st : St) : (runGoal ask g st).1 = true ↔ Holds R g :=
  (runGoal_exact (R := R) (P := fun _ => True) (ask := ask) g st
    (by intro i a b m st hq; rw [h] at hq; simp at hq) trivial).2

theorem leaf_insert {k : Key} {b : Bool} {st : St} (h : LeafExact C st)
    (hk : Leaf C k → (b = true ↔ Related C k.src k.dst k.mode)) : LeafExact C (insert C k b st) := by
  intro x c hx e
  simp only [insert] at e
  split at e
  · cases e
  · split at e
    · rename_i e'
      subst e'
      cases e
      exact hk hx
    · exact h x c hx e

theorem relate_leaf : ∀ (f rem : Nat) (k : Key) (st : St), LeafExact C st →
    LeafExact C (relate C f rem k st).2
  | 0, _, _, _, h => h
  | f + 1, rem, k, st, h => by
    rw [relate]
    split
    · exact h
    split
    · exact h
    split
    · exact h
    split
    · exact h
    dsimp only
    split
    · exact h
    have hrun : ∀ (r : Nat → Nat) g st, LeafExact C st →
        LeafExact C
          (runGoal (fun i a b m => relate C f (r i) ⟨a, b, .assignable, m⟩) g st).2 :=
      fun r g st hst => (runGoal_no (R := fun _ _ _ => False) (P := LeafExact C)
        (fun i a b m st hs => ⟨relate_leaf f (r i) _ st hs, fun _ e => e⟩) g st hst).1
    have hout : ∀ st, LeafExact C st → LeafExact C (outcome C
        (fun i a b m => relate C f (rem - 1 - i) ⟨a, b, .assignable, m⟩)
        (fun i a b m => relate C f (rem - 1 - 1 - i) ⟨a, b, .assignable, m⟩) k st).2 := by
      intro st hst
      obtain ⟨a, b, r, m⟩ := k
      have h2 := fun g st hs => hrun (fun i => rem - 1 - 1 - i) g st hs
      cases r with
      | assignable => exact hrun (fun i => rem - 1 - i) _ st hst
      | comparable =>
        simp only [outcome]
        split
        · exact hst
        · have h3 := h2 (rules C a b m) st hst
          generalize runGoal _ (rules C a b m) st = r1 at h3
          obtain ⟨x, st'⟩ := r1
          cases x with
          | false => exact h3
          | true => exact h2 (rules C b a m) st' h3
      | strictSubtype =>
        simp only [outcome]
        have h3 := h2 (rules C a b m) st hst
        generalize runGoal _ (rules C a b m) st = r1 at h3
        obtain ⟨x, st'⟩ := r1
        cases x with
        | false => exact h3
        | true => exact h2 (rules C b a m) st' h3
    have hins := fun hk => leaf_insert (C := C) (k := k) (b := (outcome C
        (fun i a b m => relate C f (rem - 1 - i) ⟨a, b, .assignable, m⟩)
        (fun i a b m => relate C f (rem - 1 - 1 - i) ⟨a, b, .assignable, m⟩) k
        { st with
          steps := if C.limits.steps.isSome then st.steps + 1 else st.steps
          busy := k :: st.busy }).1) (hout { st with
          steps := if C.limits.steps.isSome then st.steps + 1 else st.steps
          busy := k :: st.busy } h) hk
    refine fun x c hx => hins ?_ x c hx
    intro hk
    obtain ⟨a, b, r, m⟩ := k
    obtain ⟨rfl, hq⟩ := hk
    exact (runGoal_leaf hq _).trans related_iff.symm

theorem perform_leaf (op : Op) (st : St) (h : LeafExact C st) :
    LeafExact C (perform C op st).2 := by
  rw [perform]
  split
  · exact relate_leaf C.limits.depth C.limits.depth _
      { st with steps := if C.limits.steps.isSome then 0 else st.steps } h
  · intro _ _ _ e; cases e

theorem after_leaf (ops : List Op) : LeafExact C (after C ops) := by
  suffices ∀ (ops : List Op) (st : St), LeafExact C st →
      LeafExact C (ops.foldl (fun st op => (perform C op st).2) st) from
    this ops {} (fun _ _ _ e => (by cases e))
  intro ops
  induction ops with
  | nil => intro st h; exact h
  | cons op ops ih =>
    intro st h
    exact ih _ (perform_leaf op st h)

/-- A pair that asks no question is answered by the rules at any time. -/
theorem answer_leaf (ops : List Op) {a b : Id} (hq : (rules C a b {}).questions = [])
    (hsteps : C.limits.steps = none) (hdepth : 0 < C.limits.depth)
    (hroom : 0 < C.limits.inProgress) :
    answer C ops (.assignable a b) = true ↔ Related C a b {} := by
  obtain ⟨d, hd⟩ : ∃ d, C.limits.depth = d + 1 := ⟨C.limits.depth - 1, by omega⟩
  simp only [answer, perform, Op.key, hd]
  rw [relate]
  rw [if_neg (by omega)]
  split
  · rename_i c hc
    exact after_leaf ops _ _ ⟨rfl, hq⟩ hc
  rw [if_neg (by simp [after_busy])]
  rw [if_neg (by simp [hsteps])]
  dsimp only
  rw [if_neg (by simp [after_busy]; omega)]
  exact (runGoal_leaf hq _).trans related_iff.symm

end Verif.Relate
