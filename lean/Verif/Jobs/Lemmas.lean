import Verif.Jobs.Spec
/-! Helper lemmas for the microtask theorems. -/

namespace Verif.Jobs

variable {W J E : Type}

theorem queuedIn_append (a b : List (Event J E)) : queuedIn (a ++ b) = queuedIn a ++ queuedIn b := by
  induction a with
  | nil => rfl
  | cons e a ih => cases e <;> simp [queuedIn, ih]

theorem startedIn_append (a b : List (Event J E)) :
    startedIn (a ++ b) = startedIn a ++ startedIn b := by
  induction a with
  | nil => rfl
  | cons e a ih => cases e <;> simp [startedIn, ih]

theorem failuresIn_append (a b : List (Event J E)) :
    failuresIn (a ++ b) = failuresIn a ++ failuresIn b := by
  induction a with
  | nil => rfl
  | cons e a ih =>
    cases e with
    | finish r => cases r <;> simp [failuresIn, ih]
    | _ => simp [failuresIn, ih]

/-- The events of a program by itself. -/
theorem Runs.acts {p : Prog W J E} {w tr r w'} (h : Runs p w tr r w') :
    ∀ a ∈ tr, (∃ j, a = .enq j) ∨ a = .nested [] := by
  induction h with
  | ret => intro a ha; cases ha
  | read _ ih => exact ih
  | write _ ih => exact ih
  | enqueue _ ih =>
    intro a ha
    rcases List.mem_cons.1 ha with rfl | ha
    · exact .inl ⟨_, rfl⟩
    · exact ih a ha
  | checkpoint _ ih =>
    intro a ha
    rcases List.mem_cons.1 ha with rfl | ha
    · exact .inr rfl
    · exact ih a ha

theorem started_acts {tr : List (Event J E)}
    (h : ∀ a ∈ tr, (∃ j, a = .enq j) ∨ a = .nested []) : startedIn tr = [] := by
  induction tr with
  | nil => rfl
  | cons a tr ih =>
    have ht := ih (fun b hb => h b (List.mem_cons_of_mem _ hb))
    rcases h a (List.mem_cons_self ..) with ⟨j, rfl⟩ | rfl <;> simpa [startedIn] using ht

theorem failures_acts {tr : List (Event J E)}
    (h : ∀ a ∈ tr, (∃ j, a = .enq j) ∨ a = .nested []) : failuresIn tr = [] := by
  induction tr with
  | nil => rfl
  | cons a tr ih =>
    have ht := ih (fun b hb => h b (List.mem_cons_of_mem _ hb))
    rcases h a (List.mem_cons_self ..) with ⟨j, rfl⟩ | rfl <;> simpa [failuresIn] using ht

/-- While a checkpoint is in progress a program runs by itself. -/
theorem exec_runs (d : List E → State W J E → Option (List E × State W J E)) :
    ∀ (p : Prog W J E) (s : State W J E), s.performing = true →
      ∃ acts r w', Runs p s.world acts r w' ∧
        exec (guarded d) p s = some (r,
          { world := w'
            queue := s.queue ++ queuedIn acts
            performing := true
            trace := s.trace ++ acts }) := by
  intro p
  induction p with
  | ret r =>
    intro s hs
    refine ⟨[], r, s.world, .ret, ?_⟩
    cases s
    simp only at hs
    subst hs
    simp [exec, queuedIn]
  | read k ih =>
    intro s hs
    obtain ⟨acts, r, w', hr, he⟩ := ih s.world s hs
    exact ⟨acts, r, w', .read hr, by rw [exec]; exact he⟩
  | write w k ih =>
    intro s hs
    obtain ⟨acts, r, w', hr, he⟩ := ih { s with world := w } hs
    exact ⟨acts, r, w', .write hr, by rw [exec]; exact he⟩
  | enqueue j k ih =>
    intro s hs
    obtain ⟨acts, r, w', hr, he⟩ := ih (s.push j) hs
    refine ⟨.enq j :: acts, r, w', .enqueue hr, ?_⟩
    rw [exec, he]
    simp [State.push, queuedIn]
  | checkpoint k ih =>
    intro s hs
    obtain ⟨acts, r, w', hr, he⟩ := ih [] (s.note (.nested [])) hs
    refine ⟨.nested [] :: acts, r, w', .checkpoint hr, ?_⟩
    have hg : guarded d s = some ([], s) := by rw [guarded, if_pos hs]
    simp only [exec, hg]
    rw [he]
    simp [State.note, queuedIn]

theorem Runs.deterministic {p : Prog W J E} {w tr r w'} (h : Runs p w tr r w') :
    ∀ {tr2 r2 w2}, Runs p w tr2 r2 w2 → tr = tr2 ∧ r = r2 ∧ w' = w2 := by
  induction h with
  | ret => intro _ _ _ h'; cases h'; exact ⟨rfl, rfl, rfl⟩
  | read _ ih => intro _ _ _ h'; cases h' with | read h' => exact ih h'
  | write _ ih => intro _ _ _ h'; cases h' with | write h' => exact ih h'
  | enqueue _ ih =>
    intro _ _ _ h'
    cases h' with
    | enqueue h' =>
      obtain ⟨rfl, rfl, rfl⟩ := ih h'
      exact ⟨rfl, rfl, rfl⟩
  | checkpoint _ ih =>
    intro _ _ _ h'
    cases h' with
    | checkpoint h' =>
      obtain ⟨rfl, rfl, rfl⟩ := ih h'
      exact ⟨rfl, rfl, rfl⟩

theorem round_runs (d : List E → State W J E → Option (List E × State W J E))
    (body : J → Prog W J E) (j : J) (q : List J) (es : List E) (s : State W J E)
    (hp : s.performing = true) :
    ∃ acts r w', Runs (body j) s.world acts r w' ∧
      round d body j q es s = some (es ++ errorOf r,
        { world := w'
          queue := q ++ queuedIn acts
          performing := true
          trace := s.trace ++ (.start j :: acts ++ [.finish r]) }) := by
  obtain ⟨acts, r, w', hr, he⟩ := exec_runs d (body j)
    (({ s with queue := q } : State W J E).note (.start j)) hp
  refine ⟨acts, r, w', hr, ?_⟩
  rw [round, he]
  simp [State.note]

theorem rounds_fifo (body : J → Prog W J E) : ∀ (n : Nat) (es : List E) (s : State W J E),
    s.performing = true →
    ∃ es' s' tr, rounds body n es s = some (es', s') ∧ s'.performing = true ∧
      s'.trace = s.trace ++ tr ∧ startedIn tr ++ s'.queue = s.queue ++ queuedIn tr ∧
      es' = es ++ failuresIn tr ∧
      ((startedIn tr).length = n ∨ s'.queue = []) := by
  intro n
  induction n with
  | zero => intro es s hp; exact ⟨es, s, [], rfl, hp, by simp, by simp [startedIn, queuedIn], by simp [failuresIn], .inl rfl⟩
  | succ n ih =>
    intro es s hp
    rw [rounds]
    cases hq : s.queue with
    | nil => exact ⟨es, s, [], rfl, hp, by simp, by simp [hq, startedIn, queuedIn], by simp [failuresIn], .inr hq⟩
    | cons j q =>
      simp only
      obtain ⟨acts, r, w', hr, he⟩ := round_runs (fun _ _ => none) body j q es s hp
      rw [he]
      simp only
      obtain ⟨es', s', tr, h1, h2, h3, h4, h5, h6⟩ := ih (es ++ errorOf r)
        { world := w'
          queue := q ++ queuedIn acts
          performing := true
          trace := s.trace ++ (.start j :: acts ++ [.finish r]) } rfl
      have hst : startedIn (Event.start j :: acts ++ .finish r :: tr) = j :: startedIn tr := by
        rw [List.cons_append, startedIn, startedIn_append, started_acts hr.acts]
        simp [startedIn]
      have hqu : queuedIn (Event.start j :: acts ++ .finish r :: tr) =
          queuedIn acts ++ queuedIn tr := by
        rw [List.cons_append, queuedIn, queuedIn_append]
        · simp [queuedIn]
        · simp
      have hfa : failuresIn (Event.start j :: acts ++ .finish r :: tr) =
          errorOf r ++ failuresIn tr := by
        rw [List.cons_append, failuresIn, failuresIn_append, failures_acts hr.acts]
        · cases r <;> simp [failuresIn, errorOf]
        · simp
      refine ⟨es', s', .start j :: acts ++ .finish r :: tr, h1, h2, ?_, ?_, ?_, ?_⟩
      · rw [h3]; simp
      · rw [hst, hqu, List.cons_append, h4]; simp
      · rw [hfa, h5]; simp
      · rw [hst]
        rcases h6 with h6 | h6
        · exact .inl (by simp [h6])
        · exact .inr h6

/-- A drain that returns has run the queue to exhaustion. -/
theorem drain_sound (body : J → Prog W J E) : ∀ (fuel : Nat) (es : List E) (s : State W J E)
    (es' : List E) (s' : State W J E), s.performing = true →
    drain body fuel es s = some (es', s') →
    ∃ tr es2, Drains body s.world s.queue tr es2 s'.world ∧ es' = es ++ es2 ∧
      s'.queue = [] ∧ s'.performing = true ∧ s'.trace = s.trace ++ tr := by
  intro fuel
  induction fuel with
  | zero => intro es s es' s' _ h; cases h
  | succ fuel ih =>
    intro es s es' s' hp h
    rw [drain] at h
    cases hq : s.queue with
    | nil =>
      rw [hq] at h
      cases h
      exact ⟨[], [], .done, by simp, hq, hp, by simp⟩
    | cons j q =>
      rw [hq] at h
      obtain ⟨acts, r, w', hr, he⟩ := round_runs (drain body fuel) body j q es s hp
      simp only [he] at h
      obtain ⟨tr, es2, hd, rfl, hq', hp', ht⟩ := ih _ _ _ _ rfl h
      refine ⟨.start j :: acts ++ .finish r :: tr, errorOf r ++ es2, .next hr hd, ?_, hq', hp', ?_⟩
      · simp
      · rw [ht]; simp

/-- If the queue can be run to exhaustion, the drain returns. -/
theorem drain_complete (body : J → Prog W J E) {w q tr es w'} (h : Drains body w q tr es w') :
    ∃ fuel, ∀ (es0 : List E) (tr0 : List (Event J E)),
      drain body fuel es0 { world := w, queue := q, performing := true, trace := tr0 } =
        some (es0 ++ es, { world := w', queue := [], performing := true, trace := tr0 ++ tr }) := by
  induction h with
  | done => exact ⟨1, fun es0 tr0 => by simp [drain]⟩
  | next hr _ ih =>
    rename_i w j q acts r w1 tr es w2 _
    obtain ⟨fuel, ih⟩ := ih
    refine ⟨fuel + 1, fun es0 tr0 => ?_⟩
    rw [drain]
    simp only
    obtain ⟨acts', r', w1', hr', he⟩ := round_runs (drain body fuel) body j q es0
      { world := w, queue := j :: q, performing := true, trace := tr0 } rfl
    obtain ⟨rfl, rfl, rfl⟩ := hr.deterministic hr'
    simp only [he]
    rw [ih]
    simp

theorem Drains.blocks {body : J → Prog W J E} {w q tr es w'} (h : Drains body w q tr es w') :
    ∃ blocks : List (List (Event J E)), tr = blocks.flatten ∧ ∀ b ∈ blocks, IsBlock b := by
  induction h with
  | done => exact ⟨[], rfl, fun b hb => by cases hb⟩
  | next hr _ ih =>
    rename_i w j q acts r w1 tr es w2 _
    obtain ⟨blocks, rfl, hb⟩ := ih
    refine ⟨(.start j :: (acts ++ [.finish r])) :: blocks, by simp, ?_⟩
    intro b hb'
    rcases List.mem_cons.1 hb' with rfl | hb'
    · exact ⟨j, acts, r, rfl, hr.acts⟩
    · exact hb b hb'

theorem Drains.fifo {body : J → Prog W J E} {w q tr es w'} (h : Drains body w q tr es w') :
    startedIn tr = q ++ queuedIn tr ∧ failuresIn tr = es := by
  induction h with
  | done => exact ⟨rfl, rfl⟩
  | next hr _ ih =>
    rename_i w j q acts r w1 tr es w2 _
    obtain ⟨h1, h2⟩ := ih
    have hs := started_acts hr.acts
    have hf := failures_acts hr.acts
    constructor
    · have : startedIn (Event.start j :: acts ++ .finish r :: tr) = j :: startedIn tr := by
        rw [List.cons_append, startedIn, startedIn_append, hs]
        simp [startedIn]
      rw [this, h1]
      have : queuedIn (Event.start j :: acts ++ .finish r :: tr) = queuedIn acts ++ queuedIn tr := by
        rw [List.cons_append, queuedIn, queuedIn_append]
        · simp [queuedIn]
        · simp
      rw [this]
      simp
    · have : failuresIn (Event.start j :: acts ++ .finish r :: tr) = errorOf r ++ failuresIn tr := by
        rw [List.cons_append, failuresIn, failuresIn_append, hf]
        · cases r <;> simp [failuresIn, errorOf]
        · simp
      rw [this, h2]

theorem prefix_append_cases {α : Type} {p a b : List α} (h : p <+: a ++ b) :
    p <+: a ∨ ∃ p', p = a ++ p' ∧ p' <+: b := by
  obtain ⟨t, ht⟩ := h
  rcases List.append_eq_append_iff.1 ht with ⟨c, h1, h2⟩ | ⟨c, h1, h2⟩
  · exact .inl ⟨c, h1.symm⟩
  · exact .inr ⟨c, h1, ⟨t, h2.symm⟩⟩

/-- At every moment the jobs started are the oldest ones queued. -/
theorem Drains.causal {body : J → Prog W J E} {w q tr es w'} (h : Drains body w q tr es w') :
    ∀ p, p <+: tr → startedIn p <+: q ++ queuedIn p := by
  induction h with
  | done =>
    intro p hp
    have : p = [] := List.prefix_nil.1 hp
    subst this
    exact List.prefix_refl _
  | next hr _ ih =>
    rename_i w j q acts r w1 tr es w2 _
    intro p hp
    have hs : ∀ a, a <+: acts → startedIn a = [] := fun a ha =>
      started_acts (fun x hx => hr.acts x (ha.subset hx))
    cases p with
    | nil => exact List.nil_prefix
    | cons e p =>
      rw [List.cons_append, List.cons_prefix_cons] at hp
      obtain ⟨rfl, hp⟩ := hp
      have e1 : startedIn (Event.start j :: p : List (Event J E)) = j :: startedIn p := rfl
      have e2 : queuedIn (Event.start j :: p : List (Event J E)) = queuedIn p := rfl
      rw [e1, e2, List.cons_append, List.cons_prefix_cons]
      refine ⟨rfl, ?_⟩
      rcases prefix_append_cases hp with hpa | ⟨p', rfl, hp'⟩
      · rw [hs p hpa]; exact List.nil_prefix
      · rw [startedIn_append, hs acts (List.prefix_refl _), List.nil_append, queuedIn_append]
        cases p' with
        | nil => exact List.nil_prefix
        | cons e p' =>
          rw [List.cons_prefix_cons] at hp'
          obtain ⟨rfl, hp'⟩ := hp'
          have e3 : startedIn (Event.finish r :: p' : List (Event J E)) = startedIn p' := rfl
          have e4 : queuedIn (Event.finish r :: p' : List (Event J E)) = queuedIn p' := rfl
          rw [e3, e4, ← List.append_assoc]
          exact ih p' hp'

/-! ## The VM's queue -/

theorem vexec_runs (d : Except E Unit → VState W J E → Option (Except E Unit × VState W J E)) :
    ∀ (p : VProg W J E), NoCall p → ∀ (s : VState W J E), s.performing = true →
      ∃ acts r w', Runs p.plain s.world acts r w' ∧
        vexec (vguarded d) p s = some (r,
          { world := w'
            queue := s.queue
            performing := true
            hooks := s.hooks ++ queuedIn acts
            hooksFlag := s.hooksFlag
            trace := s.trace ++ acts }) := by
  intro p hp
  induction hp with
  | ret =>
    rename_i r
    intro s hs
    refine ⟨[], r, s.world, .ret, ?_⟩
    cases s
    simp only at hs
    subst hs
    simp [vexec, queuedIn]
  | read _ ih =>
    intro s hs
    obtain ⟨acts, r, w', hr, he⟩ := ih s.world s hs
    exact ⟨acts, r, w', .read hr, by rw [vexec]; exact he⟩
  | write _ ih =>
    rename_i w k _
    intro s hs
    obtain ⟨acts, r, w', hr, he⟩ := ih { s with world := w } hs
    exact ⟨acts, r, w', .write hr, by rw [vexec]; exact he⟩
  | enqueue _ ih =>
    rename_i j k _
    intro s hs
    obtain ⟨acts, r, w', hr, he⟩ := ih (s.push j) hs
    refine ⟨.enq j :: acts, r, w', .enqueue hr, ?_⟩
    rw [vexec, he]
    simp [VState.push, queuedIn]
  | checkpoint _ ih =>
    rename_i k _
    intro s hs
    obtain ⟨acts, r, w', hr, he⟩ := ih (.ok ()) (s.note (.nested [])) hs
    refine ⟨.nested [] :: acts, r, w', .checkpoint hr, ?_⟩
    have hg : vguarded d s = some (.ok (), s) := by rw [vguarded, if_pos hs]
    simp only [vexec, hg, errorOf]
    rw [he]
    simp [VState.note, queuedIn]

/-- The first error, as a result. -/
def firstOf : List E → Except E Unit
  | [] => .ok ()
  | e :: _ => .error e

theorem firstError_firstOf (es : List E) (r : Except E Unit) :
    firstError (firstOf es) r = firstOf (es ++ errorOf r) := by
  cases es with
  | nil => cases r <;> rfl
  | cons e es => rfl

theorem vdrain_sound (body : J → VProg W J E) (hb : ∀ j, NoCall (body j)) :
    ∀ (fuel : Nat) (es : List E) (s : VState W J E)
    (r' : Except E Unit) (s' : VState W J E), s.performing = true →
    vdrain body fuel (firstOf es) s = some (r', s') →
    ∃ tr es2, Drains (fun j => (body j).plain) s.world s.queue tr es2 s'.world ∧
      r' = firstOf (es ++ es2) ∧ s'.queue = [] ∧ s'.performing = true ∧
      s'.hooks = s.hooks ∧ s'.hooksFlag = s.hooksFlag ∧ s'.trace = s.trace ++ tr := by
  intro fuel
  induction fuel with
  | zero => intro es s es' s' _ h; cases h
  | succ fuel ih =>
    intro es s es' s' hp h
    rw [vdrain] at h
    cases hq : s.queue with
    | nil =>
      rw [hq] at h
      cases h
      exact ⟨[], [], .done, by simp, hq, hp, rfl, rfl, by simp⟩
    | cons j q =>
      rw [hq] at h
      simp only at h
      obtain ⟨acts, r, w', hr, he⟩ := vexec_runs (vdrain body fuel) (body j) (hb j)
        (localHost (({ s with queue := q } : VState W J E).note (.start j))) hp
      rw [he] at h
      simp only [firstError_firstOf] at h
      obtain ⟨tr, es2, hd, rfl, hq', hp', hh, hf, ht⟩ := ih _ _ _ _ rfl h
      simp only [drainInto, VState.note, localHost, List.nil_append] at hd hh hf ht
      refine ⟨.start j :: acts ++ .finish r :: tr, errorOf r ++ es2, .next hr hd, ?_, hq', hp', hh,
        hf, ?_⟩
      · simp
      · rw [ht]; simp

theorem vperform_empty (body : J → VProg W J E) (fuel : Nat) (s : VState W J E)
    (hq : s.queue = []) (hp : s.performing = false) :
    vperform body (fuel + 1) s = some (.ok (), s) := by
  cases s
  simp only at hq hp
  subst hq hp
  simp [vperform, vguarded, vdrain]

/-- A script that makes no calls without hooks, with the queue moved out of the VM. -/
theorem vexec_hooks (body : J → VProg W J E) (fuel : Nat) :
    ∀ (p : VProg W J E), NoCall p →
      ∀ (s : VState W J E), s.queue = [] → s.performing = false →
        ∃ r s' tr, vexec (vperform body (fuel + 1)) p s = some (r, s') ∧
          s'.trace = s.trace ++ tr ∧ startedIn tr = [] ∧
          s'.hooks = s.hooks ++ queuedIn tr ∧ s'.hooksFlag = s.hooksFlag := by
  intro p hp
  induction hp with
  | ret =>
    rename_i r
    intro s _ _
    exact ⟨r, s, [], rfl, by simp, rfl, by simp [queuedIn], rfl⟩
  | read _ ih => intro s hq hp; exact ih s.world s hq hp
  | write _ ih => intro s hq hp; exact ih { s with world := _ } hq hp
  | enqueue _ ih =>
    rename_i j k _
    intro s hq hp
    obtain ⟨r, s', tr, h1, h2, h3, h4, h5⟩ := ih (s.push j) hq hp
    refine ⟨r, s', .enq j :: tr, h1, ?_, h3, ?_, h5⟩
    · rw [h2]; simp [VState.push]
    · rw [h4]; simp [VState.push, queuedIn]
  | checkpoint _ ih =>
    intro s hq hp
    obtain ⟨r, s', tr, h1, h2, h3, h4, h5⟩ := ih (.ok ()) (s.note (.nested [])) hq hp
    refine ⟨r, s', .nested [] :: tr, ?_, ?_, h3, ?_, h5⟩
    · simp only [vexec, vperform_empty body fuel s hq hp]
      exact h1
    · rw [h2]; simp [VState.note]
    · rw [h4]; simp [VState.note, queuedIn]

end Verif.Jobs
