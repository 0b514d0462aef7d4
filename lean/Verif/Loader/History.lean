import Verif.Loader.Invariant
/-!
# Loading a module graph: termination and history
-/

namespace Verif.Loader

open Verif.Modules (Str Request requestsEqual requestsEqual_refl)

/-! ## What no step undoes -/

theorem settle_mods (w : World) (l : Nat) (o : Outcome) : (w.settle l o).mods = w.mods := by
  unfold World.settle; split
  · rfl
  · split <;> rfl

theorem fail_mods (w : World) (l : Nat) (e : Error) : (w.fail l e).mods = w.mods := by
  unfold World.fail; split
  · rfl
  · exact settle_mods ..

theorem continue_mods (w : World) (l : Nat) (r : Except Error Nat) (st : List Frame) :
    (continueLoading w l r st).world.mods = w.mods := by
  unfold continueLoading
  split
  · cases r
    · exact fail_mods ..
    · rfl
  · rfl

theorem step_mle (c : Config) : MLe c.world.mods (step c).world.mods := by
  obtain ⟨w, st⟩ := c
  cases st with
  | nil => exact MLe.refl _
  | cons f st =>
    cases f with
    | inner l m =>
      simp only [step, enter]
      split
      · split <;> exact MLe.refl _
      · rw [fail_mods]; exact MLe.refl _
    | loop l m qs =>
      cases qs with
      | nil =>
        simp only [step, World.finishModule]
        split
        · exact MLe.refl _
        · split
          · exact MLe.refl _
          · rw [settle_mods]; exact mle_markLinked _ _
      | cons q qs =>
        simp only [step, request]
        split
        · rw [continue_mods]; exact MLe.refl _
        · split <;> exact MLe.refl _
    | after l m qs =>
      simp only [step]
      split <;> exact MLe.refl _
    | host as =>
      cases as with
      | nil => exact MLe.refl _
      | cons a as =>
        cases a with
        | addModule qs => exact mle_append _ _
        | start r => exact MLe.refl _
        | finish i res =>
          simp only [step, act]
          split
          · exact MLe.refl _
          · simp only [finishImported]
            cases res with
            | error e => simp only [continue_mods]; exact MLe.refl _
            | ok m =>
              simp only
              cases hm : recordLoaded w.mods _ m with
              | none => simp only [continue_mods]; exact MLe.refl _
              | some mods' => simp only [continue_mods]; exact (recordLoaded_spec hm).1

theorem run_mle (n : Nat) (c : Config) : MLe c.world.mods (run n c).world.mods := by
  induction n generalizing c with
  | zero => exact MLe.refl _
  | succ n ih => exact (step_mle c).trans (ih _)

/-! ## Termination -/

/-- Actions the host has still to perform. -/
def frameActs : Frame → Nat
  | .host as => as.length
  | _ => 0

def actsLeft (c : Config) : Nat :=
  (c.world.script.map List.length).sum + (c.stack.map frameActs).sum

/-- Modules a load has not visited. -/
def unvisited (n : Nat) (visited : List Nat) : Nat := ((List.range n).filter (fun m => m ∉ visited)).length

def pairsLeft (w : World) : Nat := (w.loads.map (fun L => unvisited w.mods.length L.visited)).sum

def frameWeight : Frame → Nat
  | .inner _ _ => 2
  | .loop _ _ qs => 5 * qs.length + 1
  | .after _ _ qs => 5 * qs.length + 2
  | .host _ => 1

def stackWeight (st : List Frame) : Nat := (st.map frameWeight).sum

def meas (c : Config) : Nat × Nat × Nat := (actsLeft c, pairsLeft c.world, stackWeight c.stack)

abbrev MLt : Nat × Nat × Nat → Nat × Nat × Nat → Prop :=
  Prod.Lex (· < ·) (Prod.Lex (· < ·) (· < ·))

theorem mlt_wf : WellFounded MLt :=
  (Prod.lex ⟨_, Nat.lt_wfRel.wf⟩ (Prod.lex ⟨_, Nat.lt_wfRel.wf⟩ ⟨_, Nat.lt_wfRel.wf⟩)).wf

theorem mlt_of {c d : Config} (h1 : actsLeft d ≤ actsLeft c) (h2 : pairsLeft d.world ≤ pairsLeft c.world)
    (h3 : stackWeight d.stack < stackWeight c.stack) : MLt (meas d) (meas c) := by
  unfold meas
  rcases Nat.lt_or_eq_of_le h1 with h1 | h1
  · exact .left _ _ h1
  · rw [h1]
    refine .right _ ?_
    rcases Nat.lt_or_eq_of_le h2 with h2 | h2
    · exact .left _ _ h2
    · rw [h2]
      exact .right _ h3

theorem set_map_sum {α : Type} (f : α → Nat) : ∀ (l : List α) (i : Nat) (x y : α), l[i]? = some x →
    ((l.set i y).map f).sum + f x = (l.map f).sum + f y
  | [], i, x, y, h => by simp at h
  | z :: l, 0, x, y, h => by
    simp only [List.getElem?_cons_zero, Option.some.injEq] at h
    subst h
    simp only [List.set_cons_zero, List.map_cons, List.sum_cons]
    omega
  | z :: l, i + 1, x, y, h => by
    simp only [List.getElem?_cons_succ] at h
    have := set_map_sum f l i x y h
    simp only [List.set_cons_succ, List.map_cons, List.sum_cons]
    omega

theorem settle_pairs (w : World) (l : Nat) (o : Outcome) : pairsLeft (w.settle l o) = pairsLeft w := by
  unfold World.settle
  cases hl : w.loads[l]? with
  | none => rfl
  | some L =>
    cases ho : L.outcome with
    | some _ => simp only [ho]
    | none =>
      simp only [ho]
      have := set_map_sum (fun L => unvisited w.mods.length L.visited) w.loads l L
        { L with outcome := some o } hl
      simp only at this
      simp only [pairsLeft]
      omega

theorem fail_pairs (w : World) (l : Nat) (e : Error) : pairsLeft (w.fail l e) = pairsLeft w := by
  unfold World.fail
  cases hl : w.loads[l]? with
  | none => rfl
  | some L =>
    simp only [settle_pairs]
    have := set_map_sum (fun L => unvisited w.mods.length L.visited) w.loads l L
      { L with isLoading := false } hl
    simp only at this
    simp only [pairsLeft]
    omega

theorem settle_script (w : World) (l : Nat) (o : Outcome) : (w.settle l o).script = w.script := by
  unfold World.settle; split
  · rfl
  · split <;> rfl

theorem fail_script (w : World) (l : Nat) (e : Error) : (w.fail l e).script = w.script := by
  unfold World.fail; split
  · rfl
  · exact settle_script ..

theorem markLinked_length (v : List Nat) (m : List Mod) : (markLinked v m).length = m.length := by
  unfold markLinked; simp

theorem finishModule_pairs (w : World) (l : Nat) : pairsLeft (w.finishModule l) = pairsLeft w := by
  unfold World.finishModule
  cases hl : w.loads[l]? with
  | none => rfl
  | some L =>
    simp only
    split
    · have := set_map_sum (fun L => unvisited w.mods.length L.visited) w.loads l L
        { L with pending := L.pending - 1 } hl
      simp only at this
      simp only [pairsLeft]
      omega
    · rw [settle_pairs]
      have := set_map_sum (fun L => unvisited w.mods.length L.visited) w.loads l L
        { L with pending := L.pending - 1, isLoading := false } hl
      simp only at this
      simp only [pairsLeft, markLinked_length]
      omega

theorem finishModule_script (w : World) (l : Nat) : (w.finishModule l).script = w.script := by
  unfold World.finishModule
  split
  · rfl
  · split
    · rfl
    · exact settle_script ..

theorem unvisited_lt {n m : Nat} {vs : List Nat} (hm : m < n) (hv : m ∉ vs) :
    unvisited n (vs ++ [m]) < unvisited n vs := by
  unfold unvisited
  have hsub : ((List.range n).filter (fun x => x ∉ vs ++ [m])) =
      ((List.range n).filter (fun x => x ∉ vs)).filter (fun x => x ≠ m) := by
    rw [List.filter_filter]
    congr 1
    funext x
    simp only [List.mem_append, List.mem_singleton, not_or, ne_eq, Bool.decide_and]
    rw [Bool.and_comm]
  rw [hsub]
  exact List.length_filter_lt_length_iff_exists.2
    ⟨m, List.mem_filter.2 ⟨List.mem_range.2 hm, by simpa using hv⟩, by simp⟩

theorem continue_acts (w : World) (l : Nat) (r : Except Error Nat) (st : List Frame) :
    actsLeft (continueLoading w l r st) = actsLeft ⟨w, st⟩ := by
  unfold continueLoading
  split
  · cases r
    · simp only [actsLeft, fail_script]
    · simp [actsLeft, frameActs]
  · rfl

theorem step_meas {c : Config} (h : c.stack ≠ []) : MLt (meas (step c)) (meas c) := by
  obtain ⟨w, st⟩ := c
  cases st with
  | nil => exact absurd rfl h
  | cons f st =>
    cases f with
    | inner l m =>
      simp only [step, enter]
      cases hm : w.mods[m]? with
      | none =>
        apply mlt_of
        · simp [actsLeft, fail_script, frameActs]
        · exact Nat.le_of_eq (fail_pairs ..)
        · simp [stackWeight, frameWeight]
      | some r =>
        cases hl : w.loads[l]? with
        | none =>
          apply mlt_of
          · simp [actsLeft, fail_script, frameActs]
          · exact Nat.le_of_eq (fail_pairs ..)
          · simp [stackWeight, frameWeight]
        | some L =>
          simp only
          by_cases hc : r.linked = false ∧ m ∉ L.visited
          · rw [if_pos hc]
            unfold meas
            have e : actsLeft ⟨{ w with loads := w.loads.set l { L with
                visited := L.visited ++ [m], pending := L.pending + r.requests.length } },
                .loop l m r.requests :: st⟩ = actsLeft ⟨w, .inner l m :: st⟩ := by
              simp [actsLeft, frameActs]
            rw [e]
            refine .right _ (.left _ _ ?_)
            have := set_map_sum (fun L => unvisited w.mods.length L.visited) w.loads l L
              { L with visited := L.visited ++ [m], pending := L.pending + r.requests.length } hl
            have h2 := unvisited_lt (List.getElem?_eq_some_iff.1 hm).1 hc.2
            simp only at this
            simp only [pairsLeft]
            omega
          · rw [if_neg hc]
            apply mlt_of
            · simp [actsLeft, frameActs]
            · exact Nat.le_refl _
            · simp [stackWeight, frameWeight]
    | loop l m qs =>
      cases qs with
      | nil =>
        simp only [step]
        apply mlt_of
        · simp [actsLeft, finishModule_script, frameActs]
        · exact Nat.le_of_eq (finishModule_pairs ..)
        · simp [stackWeight, frameWeight]
      | cons q qs =>
        simp only [step, request]
        by_cases hs : allSupported w.supported q = false
        · rw [if_pos hs]
          apply mlt_of
          · rw [continue_acts]; simp [actsLeft, frameActs]
          · unfold continueLoading
            split
            · exact Nat.le_of_eq (fail_pairs ..)
            · exact Nat.le_refl _
          · have e : (continueLoading w l (.error .unsupported) (.after l m qs :: st)).stack = .after l m qs :: st := by
              unfold continueLoading; split <;> rfl
            rw [e]
            simp only [stackWeight, frameWeight, List.map_cons, List.sum_cons, List.length_cons]
            omega
        · rw [if_neg hs]
          split
          · apply mlt_of
            · simp [actsLeft, frameActs]
            · exact Nat.le_refl _
            · simp only [stackWeight, frameWeight, List.map_cons, List.sum_cons, List.length_cons]
              omega
          · apply mlt_of
            · simp only [actsLeft, frameActs, List.map_cons, List.sum_cons]
              cases w.script with
              | nil => simp
              | cons x xs => simp; omega
            · exact Nat.le_refl _
            · simp only [stackWeight, frameWeight, List.map_cons, List.sum_cons, List.length_cons]
              omega
    | after l m qs =>
      simp only [step]
      split
      · apply mlt_of
        · simp [actsLeft, frameActs]
        · exact Nat.le_refl _
        · simp only [stackWeight, frameWeight, List.map_cons, List.sum_cons]
          omega
      · apply mlt_of
        · simp [actsLeft, frameActs]
        · exact Nat.le_refl _
        · simp only [stackWeight, frameWeight, List.map_cons, List.sum_cons]
          omega
    | host as =>
      cases as with
      | nil =>
        apply mlt_of
        · simp [step, actsLeft, frameActs]
        · exact Nat.le_refl _
        · simp [step, stackWeight, frameWeight]
      | cons a as =>
        have key : actsLeft (act w a (.host as :: st)) < actsLeft ⟨w, .host (a :: as) :: st⟩ := by
          cases a with
          | addModule qs => simp [act, actsLeft, frameActs]
          | start r => simp [act, actsLeft, frameActs]
          | finish i res =>
            simp only [act]
            split
            · simp [actsLeft, frameActs]
            · simp only [finishImported]
              cases res with
              | error e => rw [continue_acts]; simp [actsLeft, frameActs]
              | ok m =>
                simp only
                split
                · rw [continue_acts]; simp [actsLeft, frameActs]
                · rw [continue_acts]; simp [actsLeft, frameActs]
        exact .left _ _ key

theorem terminates (c : Config) : ∃ n, (run n c).stack = [] := by
  have : ∀ x, ∀ c, meas c = x → ∃ n, (run n c).stack = [] := by
    intro x
    induction x using mlt_wf.induction with
    | _ x ih =>
      intro c hc
      by_cases hst : c.stack = []
      · exact ⟨0, hst⟩
      · obtain ⟨n, hn⟩ := ih (meas (step c)) (hc ▸ step_meas hst) (step c) rfl
        exact ⟨n + 1, hn⟩
  exact this _ c rfl

/-! ## Settlements -/

/-- The event is not a settlement. -/
def Quiet : Event → Prop
  | .settled _ _ => False
  | _ => True

/-- What a step does to the outcomes and to the history. -/
def Effect (c : Config) (w' : World) : Prop :=
  ∃ evs, (∀ e ∈ evs, Quiet e) ∧
    (((∀ k, outcomeOf w' k = outcomeOf c.world k) ∧ w'.log = c.world.log ++ evs) ∨
      ∃ l o, Cause c l o ∧ outcomeOf c.world l = none ∧ outcomeOf w' l = some o ∧
        (∀ k, k ≠ l → outcomeOf w' k = outcomeOf c.world k) ∧ w'.log = c.world.log ++ evs ++ [.settled l o])

theorem outcomeOf_set {w w' : World} {l : Nat} {L L' : Load} (hl : w.loads[l]? = some L)
    (hw : w'.loads = w.loads.set l L') :
    outcomeOf w' l = L'.outcome ∧ ∀ k, k ≠ l → outcomeOf w' k = outcomeOf w k := by
  have hlt := (List.getElem?_eq_some_iff.1 hl).1
  constructor
  · simp only [outcomeOf, hw, List.getElem?_set_self hlt, Option.bind_some]
  · intro k hk
    simp only [outcomeOf, hw, List.getElem?_set_ne (Ne.symm hk)]

theorem outcomeOf_some {w : World} {l : Nat} {L : Load} (hl : w.loads[l]? = some L) :
    outcomeOf w l = L.outcome := by simp only [outcomeOf, hl, Option.bind_some]

theorem Effect.same {c : Config} {w' : World} (h : ∀ k, outcomeOf w' k = outcomeOf c.world k)
    (hl : w'.log = c.world.log) : Effect c w' := ⟨[], by simp, .inl ⟨h, by simp [hl]⟩⟩

/-- Failing load `l` in a world that differs from `c` in other parts only. -/
theorem fail_effect {c : Config} {w : World} {l : Nat} {L : Load} {e : Error} {evs : List Event}
    (hL : c.world.loads[l]? = some L) (ho : L.outcome = none) (hw : w.loads = c.world.loads)
    (hlog : w.log = c.world.log ++ evs) (hq : ∀ e ∈ evs, Quiet e) (hc : Cause c l (.rejected e)) :
    Effect c (w.fail l e) := by
  rw [fail_eq (w := w) (hw ▸ hL) ho]
  obtain ⟨h1, h2⟩ := outcomeOf_set (w := c.world) (L' := { L with isLoading := false, outcome := some (.rejected e) })
    (w' := { w with
        loads := w.loads.set l { L with isLoading := false, outcome := some (.rejected e) }
        log := w.log ++ [.settled l (.rejected e)] }) hL (by rw [hw])
  exact ⟨evs, hq, .inr ⟨l, .rejected e, hc, (outcomeOf_some hL).trans ho, h1, h2, by simp only [hlog]⟩⟩

theorem continue_effect {c : Config} (h : Inv c) {w : World} {l : Nat} {r : Except Error Nat} {evs : List Event}
    {st : List Frame} (hw : w.loads = c.world.loads)
    (hlog : w.log = c.world.log ++ evs) (hq : ∀ e ∈ evs, Quiet e)
    (hc : ∀ e, r = .error e → Cause c l (.rejected e)) :
    Effect c (continueLoading w l r st).world := by
  have hsame : Effect c w := ⟨evs, hq, .inl ⟨fun k => by simp only [outcomeOf, hw], hlog⟩⟩
  unfold continueLoading
  by_cases hl : w.isLoading l = true
  · rw [if_pos hl]
    obtain ⟨L, hL, hload⟩ := (isLoading_iff w l).1 hl
    rw [hw] at hL
    cases r with
    | ok m => exact hsame
    | error e => exact fail_effect hL ((h.loads l L hL).outcome_none hload) hw hlog hq (hc e rfl)
  · rw [if_neg hl]
    exact hsame

theorem nothingPending_of_tok {w : World} {st : List Frame} {l : Nat} (h : tok w.outstanding st l = 0) :
    NothingPending w st l := by
  unfold tok at h
  refine ⟨fun t ht e => ?_, fun f hf => ?_⟩
  · have : 0 < w.outstanding.countP (fun t => t.load == l) := List.countP_pos_iff.2 ⟨t, ht, by simp [e]⟩
    omega
  · have := le_sum_of_mem (List.mem_map_of_mem (f := frameTok l) hf)
    have h0 : frameTok l f = 0 := by omega
    cases f <;> simp only [frameTok] at h0 ⊢
    all_goals (intro e; simp [e] at h0)

theorem tok_of_nothingPending {w : World} {st : List Frame} {l : Nat} (h : NothingPending w st l) :
    tok w.outstanding st l = 0 := by
  have h1 : w.outstanding.countP (fun t => t.load == l) = 0 := by
    rw [List.countP_eq_zero]
    intro t ht
    simpa using h.1 t ht
  have h2 : (st.map (frameTok l)).sum = 0 := by
    apply sum_foreign
    intro f hf
    have := h.2 f hf
    cases f <;> simp_all [Foreign]
  unfold tok
  omega

theorem unsupported_iff {supported : List Str} {q : Request} :
    allSupported supported q = false ↔ ∃ a ∈ q.attributes, a.key ∉ supported := by
  unfold allSupported
  rw [List.all_eq_false]
  constructor
  · rintro ⟨a, ha, h⟩
    refine ⟨a, ha, fun hm => h ?_⟩
    exact List.any_eq_true.2 ⟨a.key, hm, by simp⟩
  · rintro ⟨a, ha, h⟩
    refine ⟨a, ha, fun hm => h ?_⟩
    obtain ⟨k, hk, he⟩ := List.any_eq_true.1 hm
    simp only [beq_iff_eq] at he
    exact he ▸ hk

theorem recordLoaded_none {mods : List Mod} {t : Token} {m : Nat} (h : recordLoaded mods t m = none) :
    ∃ k, imported mods t.referrer t.request = some k ∧ k ≠ m := by
  unfold recordLoaded at h
  cases hr : mods[t.referrer]? with
  | none => rw [hr] at h; cases h
  | some r =>
    rw [hr] at h
    simp only at h
    cases hf : r.loaded.find? (fun l => requestsEqual l.1 t.request) with
    | none => rw [hf] at h; cases h
    | some e =>
      rw [hf] at h
      simp only at h
      by_cases he : e.2 ≠ m
      · exact ⟨e.2, by simp [imported, hr, Mod.imported, hf], he⟩
      · rw [if_neg he] at h; cases h

theorem recordLoaded_conflict {mods : List Mod} {t : Token} {m k : Nat}
    (h : imported mods t.referrer t.request = some k) (hk : k ≠ m) : recordLoaded mods t m = none := by
  unfold imported at h
  cases hr : mods[t.referrer]? with
  | none => rw [hr] at h; cases h
  | some r =>
    rw [hr] at h
    simp only [Option.bind_some, Mod.imported] at h
    cases hf : r.loaded.find? (fun l => requestsEqual l.1 t.request) with
    | none => rw [hf] at h; cases h
    | some e =>
      rw [hf] at h
      simp only [Option.map_some, Option.some.injEq] at h
      simp only [recordLoaded, hr, hf]
      rw [if_pos (h ▸ hk)]

theorem step_effect {c : Config} (h : Inv c) : Effect c (step c).world := by
  obtain ⟨w, st⟩ := c
  cases st with
  | nil => exact .same (fun _ => rfl) rfl
  | cons f st =>
    cases f with
    | inner l m =>
      obtain ⟨L, hL, hload⟩ := h.top l rfl
      have ho := (h.loads l L hL).outcome_none hload
      simp only at hL
      simp only [step, enter]
      cases hm : w.mods[m]? with
      | none =>
        exact fail_effect (evs := []) hL ho rfl (by simp) (by simp) ⟨m, st, rfl, hm⟩
      | some r =>
        simp only [hL]
        split
        · obtain ⟨h1, h2⟩ := outcomeOf_set (w := w) (w' := { w with loads := w.loads.set l { L with
            visited := L.visited ++ [m], pending := L.pending + r.requests.length } }) hL rfl
          refine .same (fun k => ?_) rfl
          by_cases hk : k = l
          · subst hk; rw [h1, outcomeOf_some hL]
          · exact h2 k hk
        · exact .same (fun _ => rfl) rfl
    | loop l m qs =>
      obtain ⟨L, hL, hload⟩ := h.top l rfl
      have hok := h.loads l L hL
      have ho := hok.outcome_none hload
      simp only at hL
      cases qs with
      | nil =>
        simp only [step]
        have hcount := hok.count hload
        simp only [tok, List.map_cons, List.sum_cons, frameTok, if_pos, List.length_nil] at hcount
        by_cases hp : L.pending - 1 = 0
        · rw [finishModule_last hL ho hp]
          obtain ⟨h1, h2⟩ := outcomeOf_set (w := w) (L' := { L with
            pending := L.pending - 1, isLoading := false, outcome := some .fulfilled })
            (w' := { w with
              loads := w.loads.set l { L with
                pending := L.pending - 1, isLoading := false, outcome := some .fulfilled }
              mods := markLinked L.visited w.mods
              log := w.log ++ [.settled l .fulfilled] }) hL rfl
          refine ⟨[], by simp, .inr ⟨l, .fulfilled, ⟨m, st, rfl, ?_⟩, (outcomeOf_some hL).trans ho, h1, h2, by simp⟩⟩
          apply nothingPending_of_tok
          unfold tok
          simp only
          omega
        · simp only [World.finishModule, hL, if_pos (c := L.pending - 1 ≠ 0) hp]
          obtain ⟨h1, h2⟩ := outcomeOf_set (w := w) (w' := { w with loads := w.loads.set l { L with
            pending := L.pending - 1 } }) hL rfl
          refine .same (fun k => ?_) rfl
          by_cases hk : k = l
          · subst hk; rw [h1, outcomeOf_some hL]
          · exact h2 k hk
      | cons q qs =>
        simp only [step, request]
        by_cases hs : allSupported w.supported q = false
        · rw [if_pos hs]
          refine continue_effect h (evs := []) rfl (by simp) (by simp) (fun e he => ?_)
          cases he
          exact ⟨m, q, qs, st, rfl, unsupported_iff.1 hs⟩
        · rw [if_neg hs]
          split
          · exact .same (fun _ => rfl) rfl
          · exact ⟨[.asked { load := l, referrer := m, request := q }], by simp [Quiet], .inl ⟨fun _ => rfl, rfl⟩⟩
    | after l m qs =>
      simp only [step]
      split <;> exact .same (fun _ => rfl) rfl
    | host as =>
      cases as with
      | nil => exact .same (fun _ => rfl) rfl
      | cons a as =>
        cases a with
        | addModule qs => exact .same (fun _ => rfl) rfl
        | start r =>
          refine .same (fun k => ?_) rfl
          simp only [step, act, outcomeOf]
          rcases Nat.lt_trichotomy k w.loads.length with hlt | heq | hgt
          · rw [List.getElem?_append_left hlt]
          · subst heq
            simp
          · rw [List.getElem?_eq_none (l := w.loads) (by omega), List.getElem?_eq_none (by simp; omega)]
        | finish i res =>
          simp only [step, act]
          cases ht : w.outstanding[i]? with
          | none => exact .same (fun _ => rfl) rfl
          | some t =>
            simp only [finishImported]
            cases res with
            | error e =>
              refine continue_effect h (evs := [.answered t (.error e)]) rfl rfl (by simp [Quiet]) (fun e' he => ?_)
              cases he
              exact ⟨i, as, st, t, rfl, ht, rfl⟩
            | ok m =>
              simp only
              cases hm : recordLoaded w.mods t m with
              | none =>
                refine continue_effect h (evs := [.answered t (.ok m)]) rfl rfl (by simp [Quiet]) (fun e' he => ?_)
                cases he
                obtain ⟨k, h1, h2⟩ := recordLoaded_none hm
                exact ⟨i, m, as, st, t, k, rfl, ht, rfl, h1, h2⟩
              | some mods' =>
                exact continue_effect h (evs := [.answered t (.ok m)]) rfl rfl (by simp [Quiet])
                  (fun e' he => (by cases he))

/-- The history and the outcomes agree. -/
def LogOK (w : World) : Prop :=
  ∀ l, settlements w.log l = (outcomeOf w l).toList.length ∧
    ∀ o, Event.settled l o ∈ w.log ↔ outcomeOf w l = some o

theorem settlements_quiet {evs : List Event} (h : ∀ e ∈ evs, Quiet e) (l : Nat) : settlements evs l = 0 := by
  unfold settlements
  rw [List.countP_eq_zero]
  intro e he
  have := h e he
  cases e <;> simp_all [Quiet]

theorem step_logOK {c : Config} (h : Inv c) (hl : LogOK c.world) : LogOK (step c).world := by
  obtain ⟨evs, hq, ⟨h1, h2⟩ | ⟨l, o, _, h1, h2, h3, h4⟩⟩ := step_effect h
  · intro l
    obtain ⟨e1, e2⟩ := hl l
    rw [h1, h2]
    refine ⟨?_, fun o => ?_⟩
    · have := settlements_quiet hq l
      unfold settlements at *
      rw [List.countP_append]
      omega
    · rw [List.mem_append, e2]
      refine ⟨?_, .inl⟩
      rintro (h | h)
      · exact h
      · exact absurd (hq _ h) (by simp [Quiet])
  · intro k
    obtain ⟨e1, e2⟩ := hl k
    rw [h4]
    have h0 := settlements_quiet hq k
    unfold settlements at *
    by_cases hk : k = l
    · subst hk
      rw [h2]
      refine ⟨?_, fun o' => ?_⟩
      · rw [h1] at e1
        simp only [List.countP_append, List.countP_singleton, beq_self_eq_true, if_pos, Option.toList_some,
          Option.toList_none, List.length_nil, List.length_singleton] at *
        omega
      · rw [List.mem_append, List.mem_append, e2, h1]
        simp only [List.mem_singleton, Event.settled.injEq, true_and, Option.some.injEq, reduceCtorEq, false_or]
        constructor
        · rintro (h | h)
          · exact absurd (hq _ h) (by simp [Quiet])
          · exact h.symm
        · intro h; exact .inr h.symm
    · rw [h3 k hk]
      refine ⟨?_, fun o' => ?_⟩
      · have : settlements [Event.settled l o] k = 0 := by simp [settlements, Ne.symm hk]
        unfold settlements at this
        rw [List.countP_append, List.countP_append]
        omega
      · rw [List.mem_append, List.mem_append, e2]
        simp only [List.mem_singleton, Event.settled.injEq]
        constructor
        · rintro ((h | h) | h)
          · exact h
          · exact absurd (hq _ h) (by simp [Quiet])
          · exact absurd h.1 hk
        · intro h; exact .inl (.inl h)

theorem run_logOK {c : Config} (h : Inv c) (hl : LogOK c.world) (n : Nat) : LogOK (run n c).world := by
  induction n generalizing c with
  | zero => exact hl
  | succ n ih => exact ih (step_inv h) (step_logOK h hl)

theorem outcome_stable {c : Config} (h : Inv c) {l : Nat} {o : Outcome} (ho : outcomeOf c.world l = some o)
    (n : Nat) : outcomeOf (run n c).world l = some o := by
  induction n generalizing c with
  | zero => exact ho
  | succ n ih =>
    refine ih (step_inv h) ?_
    obtain ⟨evs, hq, ⟨h1, h2⟩ | ⟨l', o', _, h1, h2, h3, h4⟩⟩ := step_effect h
    · rw [h1]; exact ho
    · by_cases hk : l = l'
      · subst hk; rw [ho] at h1; cases h1
      · rw [h3 l hk]; exact ho

/-! ## The host is asked at most once -/

/-- How often the request `q` of module `v` is still to come in a frame of load `l`. -/
def frameRem (l v : Nat) (q : Request) : Frame → Nat
  | .loop k u qs => if k = l ∧ u = v then qs.count q else 0
  | .after k u qs => if k = l ∧ u = v then qs.count q else 0
  | _ => 0

def stackRem (l v : Nat) (q : Request) (st : List Frame) : Nat := (st.map (frameRem l v q)).sum

/-- How often the request may be asked for in all. -/
def cap (w : World) (l v : Nat) (q : Request) : Nat :=
  match w.loads[l]?, w.mods[v]? with
  | some L, some r => if v ∈ L.visited then r.requests.count q else 0
  | _, _ => 0

def AskedOK (c : Config) : Prop :=
  ∀ l v q, askedFor c.world.log { load := l, referrer := v, request := q } + stackRem l v q c.stack ≤ cap c.world l v q

/-- Loads only visit more. -/
def LLe (a b : List Load) : Prop :=
  ∀ (l : Nat) (L : Load), a[l]? = some L → ∃ L' : Load, b[l]? = some L' ∧ ∀ v ∈ L.visited, v ∈ L'.visited

theorem LLe.refl (a : List Load) : LLe a a := fun _ L h => ⟨L, h, fun _ h => h⟩

theorem lle_set {a : List Load} {l : Nat} {L L' : Load} (h : a[l]? = some L)
    (hv : ∀ v ∈ L.visited, v ∈ L'.visited) : LLe a (a.set l L') := by
  intro k K hk
  by_cases hkl : l = k
  · subst hkl
    rw [h] at hk
    cases hk
    exact ⟨L', List.getElem?_set_self (List.getElem?_eq_some_iff.1 h).1, hv⟩
  · exact ⟨K, by rw [List.getElem?_set_ne hkl]; exact hk, fun _ h => h⟩

theorem settle_lle (w : World) (l : Nat) (o : Outcome) : LLe w.loads (w.settle l o).loads := by
  unfold World.settle
  cases hl : w.loads[l]? with
  | none => exact LLe.refl _
  | some L =>
    simp only
    split
    · exact LLe.refl _
    · exact lle_set hl (fun _ h => h)

theorem LLe.trans {a b c : List Load} (h1 : LLe a b) (h2 : LLe b c) : LLe a c := by
  intro l L h
  obtain ⟨L1, e1, e2⟩ := h1 l L h
  obtain ⟨L2, f1, f2⟩ := h2 l L1 e1
  exact ⟨L2, f1, fun v hv => f2 v (e2 v hv)⟩

theorem fail_lle (w : World) (l : Nat) (e : Error) : LLe w.loads (w.fail l e).loads := by
  unfold World.fail
  cases hl : w.loads[l]? with
  | none => exact LLe.refl _
  | some L =>
    exact (lle_set (L' := { L with isLoading := false }) hl (fun _ h => h)).trans
      (settle_lle { w with loads := w.loads.set l { L with isLoading := false } } l (.rejected e))

theorem cap_mono {w w' : World} (hm : MLe w.mods w'.mods) (hl : LLe w.loads w'.loads) (l v : Nat) (q : Request) :
    cap w l v q ≤ cap w' l v q := by
  unfold cap
  cases h1 : w.loads[l]? with
  | none => simp
  | some L =>
    cases h2 : w.mods[v]? with
    | none => simp
    | some r =>
      obtain ⟨L', e1, e2⟩ := hl l L h1
      obtain ⟨r', f1, f2, _, _⟩ := hm v r h2
      simp only [e1, f1, f2]
      by_cases hv : v ∈ L.visited
      · rw [if_pos hv, if_pos (e2 v hv)]
        exact Nat.le_refl _
      · rw [if_neg hv]; exact Nat.zero_le _

theorem askedFor_append (log evs : List Event) (t : Token) :
    askedFor (log ++ evs) t = askedFor log t + askedFor evs t := List.countP_append

theorem settle_asked (w : World) (l : Nat) (o : Outcome) (t : Token) :
    askedFor (w.settle l o).log t = askedFor w.log t := by
  unfold World.settle
  split
  · rfl
  · split
    · rfl
    · simp [askedFor]

theorem fail_asked (w : World) (l : Nat) (e : Error) (t : Token) :
    askedFor (w.fail l e).log t = askedFor w.log t := by
  unfold World.fail
  split
  · rfl
  · rw [settle_asked]

theorem askedOK_of {c d : Config} (h : AskedOK c) (hm : MLe c.world.mods d.world.mods)
    (hl : LLe c.world.loads d.world.loads)
    (ha : ∀ l v q, askedFor d.world.log { load := l, referrer := v, request := q } + stackRem l v q d.stack ≤
      askedFor c.world.log { load := l, referrer := v, request := q } + stackRem l v q c.stack) : AskedOK d :=
  fun l v q => Nat.le_trans (ha l v q) (Nat.le_trans (h l v q) (cap_mono hm hl l v q))

theorem continue_asked {c : Config} {w : World} {l : Nat} {r : Except Error Nat} {st : List Frame}
    (h : AskedOK c) (hm : MLe c.world.mods w.mods) (hl : LLe c.world.loads w.loads)
    (ha : ∀ l v q, askedFor w.log { load := l, referrer := v, request := q } + stackRem l v q st ≤
      askedFor c.world.log { load := l, referrer := v, request := q } + stackRem l v q c.stack) :
    AskedOK (continueLoading w l r st) := by
  unfold continueLoading
  split
  · cases r with
    | ok m =>
      refine askedOK_of h hm hl (fun l v q => ?_)
      simpa [stackRem, frameRem] using ha l v q
    | error e =>
      refine askedOK_of h (by rw [fail_mods]; exact hm) (hl.trans (fail_lle _ _ _)) (fun l v q => ?_)
      rw [fail_asked]
      exact ha l v q
  · exact askedOK_of h hm hl ha

theorem finishModule_asked (w : World) (l : Nat) (t : Token) :
    askedFor (w.finishModule l).log t = askedFor w.log t := by
  unfold World.finishModule
  split
  · rfl
  · split
    · rfl
    · rw [settle_asked]

theorem finishModule_lle (w : World) (l : Nat) : LLe w.loads (w.finishModule l).loads := by
  unfold World.finishModule
  cases hl : w.loads[l]? with
  | none => exact LLe.refl _
  | some L =>
    simp only
    split
    · exact lle_set hl (fun _ h => h)
    · exact (lle_set (L' := { L with pending := L.pending - 1, isLoading := false }) hl (fun _ h => h)).trans
        (settle_lle { w with
          loads := w.loads.set l { L with pending := L.pending - 1, isLoading := false }
          mods := markLinked L.visited w.mods } l .fulfilled)

theorem step_asked {c : Config} (hi : Inv c) (h : AskedOK c) : AskedOK (step c) := by
  have hmle := step_mle c
  obtain ⟨w, st⟩ := c
  cases st with
  | nil => exact h
  | cons f st =>
    cases f with
    | inner l m =>
      obtain ⟨L, hL, hload⟩ := hi.top l rfl
      simp only at hL
      simp only [step, enter] at hmle ⊢
      cases hm : w.mods[m]? with
      | none =>
        refine askedOK_of h (by rw [fail_mods]; exact MLe.refl _) (fail_lle _ _ _) (fun l v q => ?_)
        simp [fail_asked, stackRem, frameRem]
      | some r =>
        simp only [hL]
        by_cases hc : r.linked = false ∧ m ∉ L.visited
        · rw [if_pos hc]
          intro k v q
          have h1 := h k v q
          by_cases hk : l = k ∧ m = v
          · obtain ⟨rfl, rfl⟩ := hk
            simp only [cap, hL, hm, if_neg hc.2] at h1
            simp only [stackRem, List.map_cons, List.sum_cons, frameRem] at h1
            simp only [cap, List.getElem?_set_self (List.getElem?_eq_some_iff.1 hL).1, hm, stackRem, List.map_cons,
              List.sum_cons, frameRem, and_self, if_pos]
            rw [if_pos (List.mem_append_right _ (by simp))]
            omega
          · refine Nat.le_trans ?_ (Nat.le_trans h1 (cap_mono (w := w) (w' := { w with loads := w.loads.set l { L with visited := L.visited ++ [m], pending := L.pending + r.requests.length } }) (MLe.refl _)
              (lle_set hL (fun v hv => List.mem_append_left _ hv)) k v q))
            simp [stackRem, frameRem, hk]
        · rw [if_neg hc]
          refine askedOK_of h (MLe.refl _) (LLe.refl _) (fun l v q => ?_)
          simp [stackRem, frameRem]
    | loop l m qs =>
      cases qs with
      | nil =>
        refine askedOK_of h hmle (finishModule_lle _ _) (fun l v q => ?_)
        simp [step, finishModule_asked, stackRem, frameRem]
      | cons q qs =>
        have hdrop : ∀ k v p, stackRem k v p (.after l m qs :: st) ≤ stackRem k v p (.loop l m (q :: qs) :: st) := by
          intro k v p
          simp only [stackRem, List.map_cons, List.sum_cons, frameRem, List.count_cons]
          split <;> omega
        simp only [step, request]
        by_cases hs : allSupported w.supported q = false
        · rw [if_pos hs]
          exact continue_asked h (MLe.refl _) (LLe.refl _) (fun k v p => Nat.add_le_add_left (hdrop k v p) _)
        · rw [if_neg hs]
          split
          · refine askedOK_of h (MLe.refl _) (LLe.refl _) (fun k v p => Nat.add_le_add_left ?_ _)
            have := hdrop k v p
            simpa [stackRem, frameRem] using this
          · refine askedOK_of h (MLe.refl _) (LLe.refl _) (fun k v p => ?_)
            simp only [askedFor_append, stackRem, List.map_cons, List.sum_cons, frameRem, List.count_cons]
            by_cases hk : l = k ∧ m = v
            · obtain ⟨rfl, rfl⟩ := hk
              simp only [and_self, if_pos]
              by_cases hp : q = p
              · subst hp
                simp [askedFor]
                omega
              · simp [askedFor, hp]
            · rw [if_neg hk, if_neg hk]
              have : askedFor [.asked { load := l, referrer := m, request := q }]
                  { load := k, referrer := v, request := p } = 0 := by
                unfold askedFor
                rw [List.countP_eq_zero]
                intro e he
                simp only [List.mem_singleton] at he
                subst he
                simp only [beq_iff_eq, Token.mk.injEq, not_and]
                intro h1 h2
                exact absurd ⟨h1, h2⟩ hk
              omega
    | after l m qs =>
      simp only [step]
      split
      · refine askedOK_of h (MLe.refl _) (LLe.refl _) (fun k v p => ?_)
        simp [stackRem, frameRem]
      · refine askedOK_of h (MLe.refl _) (LLe.refl _) (fun k v p => ?_)
        simp [stackRem]
    | host as =>
      cases as with
      | nil =>
        refine askedOK_of h (MLe.refl _) (LLe.refl _) (fun k v p => ?_)
        simp [step, stackRem]
      | cons a as =>
        cases a with
        | addModule qs =>
          refine askedOK_of h (mle_append _ _) (LLe.refl _) (fun k v p => ?_)
          simp [step, act, stackRem, frameRem]
        | start r =>
          refine askedOK_of h (MLe.refl _) (fun k K hk => ⟨K, ?_, fun _ h => h⟩) (fun k v p => ?_)
          · simp only [step, act]
            rw [List.getElem?_append_left (List.getElem?_eq_some_iff.1 hk).1]
            exact hk
          · simp [step, act, stackRem, frameRem]
        | finish i res =>
          simp only [step, act]
          cases ht : w.outstanding[i]? with
          | none =>
            refine askedOK_of h (MLe.refl _) (LLe.refl _) (fun k v p => ?_)
            simp [stackRem, frameRem]
          | some t =>
            simp only [finishImported]
            have hlog : ∀ k v p, askedFor (w.log ++ [.answered t res]) { load := k, referrer := v, request := p } +
                stackRem k v p (.host as :: st) ≤
                askedFor w.log { load := k, referrer := v, request := p } +
                stackRem k v p (.host (.finish i res :: as) :: st) := by
              intro k v p
              simp [askedFor, stackRem, frameRem]
            cases res with
            | error e => exact continue_asked h (MLe.refl _) (LLe.refl _) hlog
            | ok m =>
              simp only
              cases hm : recordLoaded w.mods t m with
              | none => exact continue_asked h (MLe.refl _) (LLe.refl _) hlog
              | some mods' => exact continue_asked h (recordLoaded_spec hm).1 (LLe.refl _) hlog

theorem run_asked {c : Config} (hi : Inv c) (h : AskedOK c) (n : Nat) : AskedOK (run n c) := by
  induction n generalizing c with
  | zero => exact h
  | succ n ih => exact ih (step_inv hi) (step_asked hi h)

end Verif.Loader
