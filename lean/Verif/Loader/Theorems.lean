import Verif.Loader.History
/-!
# Loading a module graph: theorems (C56, C57, C58)

All theorems are about every host: `supported`, `script` and `as` are arbitrary.
-/

namespace Verif.Loader

open Verif.Modules (Str Attr Request)

variable {supported : List Str} {script : List (List Action)} {as : List Action} {c : Config}

theorem logOK_initial : LogOK (initial supported script as).world := by
  intro l
  simp [initial, settlements, outcomeOf]

/-! ## C56: a load settles, once, and for a reason -/

/-- **C56, the loader returns.** Every run comes to an end: all calls return. -/
theorem C56_returns (supported : List Str) (script : List (List Action)) (as : List Action) :
    ∃ n, (run n (initial supported script as)).stack = [] := terminates _

/-- **C56, settles.** When all calls have returned and the host has answered every request it was asked for
on behalf of a load, the promise of that load is settled. -/
theorem C56_settles (h : Occurs supported script as c) (hs : c.stack = []) (l : Nat)
    (hl : l < c.world.loads.length) (ht : ∀ t ∈ c.world.outstanding, t.load ≠ l) :
    ∃ o, outcomeOf c.world l = some o := by
  have hi := occurs_inv h
  have hL : c.world.loads[l]? = some c.world.loads[l] := List.getElem?_eq_getElem hl
  have hok := hi.loads l _ hL
  rw [outcomeOf_some hL]
  cases ho : (c.world.loads[l]).outcome with
  | some o => exact ⟨o, rfl⟩
  | none =>
    exfalso
    have hload : (c.world.loads[l]).isLoading = true := by
      have := hok.settled
      rw [ho] at this
      simpa using this
    have hcount := hok.count hload
    have hzero : tok c.world.outstanding c.stack l = 0 :=
      tok_of_nothingPending ⟨ht, by rw [hs]; simp⟩
    have := hok.pos hload
    omega

/-- **C56, at most once.** The promise of a load is settled at most once, and its outcome never changes. -/
theorem C56_settles_once (h : Occurs supported script as c) (l : Nat) :
    settlements c.world.log l ≤ 1 ∧
    (∀ o, .settled l o ∈ c.world.log ↔ outcomeOf c.world l = some o) ∧
    ∀ o, outcomeOf c.world l = some o → ∀ n, outcomeOf (run n c).world l = some o := by
  have hi := occurs_inv h
  refine ⟨?_, ?_, fun o ho n => outcome_stable hi ho n⟩
  all_goals
    obtain ⟨n, rfl⟩ := h
    obtain ⟨h1, h2⟩ := run_logOK (inv_initial ..) logOK_initial n l
  · rw [h1]
    cases outcomeOf _ l <;> simp
  · exact h2

/-- **C56, the reason.** A step settles an unsettled load with outcome `o` exactly if there is a cause for
`o`: the host reports an error, or reports a different module than before for the same request; a request
has an unsupported import attribute; the module to load does not exist; or nothing is left to do. -/
theorem C56_cause (h : Occurs supported script as c) (l : Nat) (hl : l < c.world.loads.length)
    (hn : outcomeOf c.world l = none) (o : Outcome) :
    outcomeOf (step c).world l = some o ↔ Cause c l o := by
  have hi := occurs_inv h
  constructor
  · intro ho
    obtain ⟨evs, _, ⟨h1, _⟩ | ⟨l', o', hc, h1, h2, h3, _⟩⟩ := step_effect hi
    · rw [h1, hn] at ho; cases ho
    · by_cases hk : l = l'
      · subst hk
        rw [h2] at ho
        cases ho
        exact hc
      · rw [h3 l hk, hn] at ho; cases ho
  · intro hc
    obtain ⟨L, hL⟩ : ∃ L, c.world.loads[l]? = some L := ⟨_, List.getElem?_eq_getElem hl⟩
    have hnone : L.outcome = none := by rw [← outcomeOf_some hL]; exact hn
    have hok := hi.loads l _ hL
    have hload : L.isLoading = true := by
      have := hok.settled
      rw [hnone] at this
      simpa using this
    have fails : ∀ (w : World) (e : Error), w.loads = c.world.loads →
        outcomeOf (w.fail l e) l = some (.rejected e) := by
      intro w e hw
      have hL' : w.loads[l]? = some L := by rw [hw]; exact hL
      rw [fail_eq hL' hnone]
      simp only [outcomeOf, List.getElem?_set_self (List.getElem?_eq_some_iff.1 hL').1, Option.bind_some]
    have continues : ∀ (w : World) (e : Error) (st : List Frame), w.loads = c.world.loads →
        outcomeOf (continueLoading w l (.error e) st).world l = some (.rejected e) := by
      intro w e st hw
      unfold continueLoading
      rw [if_pos ((isLoading_iff w l).2 ⟨L, by rw [hw]; exact hL, hload⟩)]
      exact fails w e hw
    cases o with
    | fulfilled =>
      obtain ⟨m, st, h1, h2⟩ := hc
      have h0 := tok_of_nothingPending h2
      have hcount := hok.count hload
      rw [h1] at hcount
      have hp : L.pending - 1 = 0 := by
        unfold tok at h0 hcount
        simp only [List.map_cons, List.sum_cons, frameTok, if_pos, List.length_nil] at hcount
        omega
      simp only [step, h1]
      rw [finishModule_last hL hnone hp]
      simp only [outcomeOf, List.getElem?_set_self hl, Option.bind_some]
    | rejected e =>
      cases e with
      | host e =>
        obtain ⟨i, as', st, t, h1, h2, rfl⟩ := hc
        simp only [step, h1, act, h2, finishImported]
        exact continues _ _ _ rfl
      | conflict =>
        obtain ⟨i, m, as', st, t, k, h1, h2, rfl, h4, h5⟩ := hc
        simp only [step, h1, act, h2, finishImported, recordLoaded_conflict h4 h5]
        exact continues _ _ _ rfl
      | unsupported =>
        obtain ⟨m, q, qs, st, h1, h2⟩ := hc
        simp only [step, h1, request, if_pos (unsupported_iff.2 h2)]
        exact continues _ _ _ rfl
      | invalidModule =>
        obtain ⟨m, st, h1, h2⟩ := hc
        simp only [step, h1, enter, h2]
        exact fails _ _ rfl

/-! ## C57: fulfilled means loaded -/

/-- **C57.** If the promise of a load is fulfilled, then from then on every module reached from the
requested one exists, has left status `New`, and each of its requests leads to a module. This holds also
when loads overlap and share modules. -/
theorem C57_fulfilled_loaded (h : Occurs supported script as c) (l : Nat) (L : Load)
    (hL : c.world.loads[l]? = some L) (ho : outcomeOf c.world l = some .fulfilled) (m : Nat)
    (hm : Reaches c.world.mods L.root m) : FullyLoaded c.world.mods m := by
  have hi := occurs_inv h
  rw [outcomeOf_some hL] at ho
  have hroot := (hi.loads l L hL).done ho
  have key : Linked c.world.mods m := by
    induction hm with
    | refl => exact hroot
    | @step b d r q _ hb hq hc ih =>
      obtain ⟨r', h1, h2⟩ := ih
      rw [hb] at h1
      cases h1
      obtain ⟨k, h3, h4⟩ := hi.linked b r hb h2 q hq
      simp only [imported, hb, Option.bind_some] at hc
      rw [h3] at hc
      cases hc
      exact h4
  obtain ⟨r, h1, h2⟩ := key
  refine ⟨r, h1, h2, fun q hq => ?_⟩
  obtain ⟨k, h3, _⟩ := hi.linked m r h1 h2 q hq
  exact ⟨k, by simp only [imported, h1, Option.bind_some, h3]⟩

/-- **C57, stability.** Once a request of a module leads to a module, it leads to the same one for ever. -/
theorem C57_stable (c : Config) (m k : Nat) (q : Request) (h : imported c.world.mods m q = some k) (n : Nat) :
    imported (run n c).world.mods m q = some k := by
  unfold imported at h
  cases hr : c.world.mods[m]? with
  | none => rw [hr] at h; cases h
  | some r =>
    rw [hr] at h
    obtain ⟨r', e1, _, _, e4⟩ := run_mle n c m r hr
    simp only [imported, e1, Option.bind_some]
    exact e4 q k h

/-! ## C58: the host is not asked twice -/

/-- **C58.** On behalf of one load the host is asked for a request of a module at most as often as the
request is listed in the module. -/
theorem C58_asked_once (h : Occurs supported script as c) (t : Token) (r : Mod)
    (hr : c.world.mods[t.referrer]? = some r) : askedFor c.world.log t ≤ r.requests.count t.request := by
  obtain ⟨n, rfl⟩ := h
  obtain ⟨l, v, q⟩ := t
  have h0 : AskedOK (initial supported script as) := by
    intro l v q
    simp [initial, askedFor, stackRem, frameRem, cap]
  have := run_asked (inv_initial supported script as) h0 n l v q
  have hcap : cap (run n (initial supported script as)).world l v q ≤
      r.requests.count q := by
    unfold cap
    rw [hr]
    cases (run n (initial supported script as)).world.loads[l]? with
    | none => exact Nat.zero_le _
    | some L =>
      simp only
      split
      · exact Nat.le_refl _
      · exact Nat.zero_le _
  simp only at hr ⊢
  omega

/-- **C58, only when needed.** The host is asked only for requests that lead to no module yet, and whose
import attributes it supports. -/
theorem C58_asked_when_needed (h : Occurs supported script as c) (t : Token)
    (ha : askedFor c.world.log t < askedFor (step c).world.log t) :
    imported c.world.mods t.referrer t.request = none ∧
      ∀ a ∈ t.request.attributes, a.key ∈ c.world.supported := by
  obtain ⟨w, st⟩ := c
  have cont : ∀ (w' : World) (l : Nat) (e : Except Error Nat) (st' : List Frame),
      askedFor (continueLoading w' l e st').world.log t = askedFor w'.log t := by
    intro w' l e st'
    unfold continueLoading
    split
    · cases e with
      | ok m => rfl
      | error e => exact fail_asked ..
    · rfl
  cases st with
  | nil => exact absurd ha (Nat.lt_irrefl _)
  | cons f st =>
    cases f with
    | inner l m =>
      exfalso
      simp only [step, enter] at ha
      split at ha
      · split at ha <;> exact Nat.lt_irrefl _ ha
      · rw [fail_asked] at ha; exact Nat.lt_irrefl _ ha
    | loop l m qs =>
      cases qs with
      | nil =>
        exfalso
        simp only [step, finishModule_asked] at ha
        exact Nat.lt_irrefl _ ha
      | cons q qs =>
        simp only [step, request] at ha
        by_cases hs : allSupported w.supported q = false
        · rw [if_pos hs, cont] at ha
          exact absurd ha (Nat.lt_irrefl _)
        · rw [if_neg hs] at ha
          cases hi : imported w.mods m q with
          | some k => rw [hi] at ha; exact absurd ha (Nat.lt_irrefl _)
          | none =>
            rw [hi] at ha
            simp only [askedFor_append] at ha
            have ht : t = { load := l, referrer := m, request := q } := by
              by_cases ht : t = { load := l, referrer := m, request := q }
              · exact ht
              · exfalso
                have : askedFor [.asked { load := l, referrer := m, request := q }] t = 0 := by
                  simp [askedFor, Ne.symm ht]
                omega
            subst ht
            refine ⟨hi, fun a ha => ?_⟩
            by_cases hk : a.key ∈ w.supported
            · exact hk
            · exact absurd (unsupported_iff.2 ⟨a, ha, hk⟩) hs
    | after l m qs =>
      exfalso
      simp only [step] at ha
      split at ha <;> exact Nat.lt_irrefl _ ha
    | host as =>
      exfalso
      cases as with
      | nil => exact Nat.lt_irrefl _ ha
      | cons a as =>
        cases a with
        | addModule qs => exact Nat.lt_irrefl _ ha
        | start r => exact Nat.lt_irrefl _ ha
        | finish i res =>
          have e : ∀ t' : Token, askedFor (w.log ++ [.answered t' res]) t = askedFor w.log t := by
            intro t'; simp [askedFor]
          simp only [step, act] at ha
          split at ha
          · exact Nat.lt_irrefl _ ha
          · simp only [finishImported] at ha
            cases res with
            | error _ => simp only [cont, e] at ha; exact Nat.lt_irrefl _ ha
            | ok m =>
              simp only at ha
              split at ha
              · simp only [cont, e] at ha; exact Nat.lt_irrefl _ ha
              · simp only [cont, e] at ha; exact Nat.lt_irrefl _ ha

/-! ## Examples -/

/-- A host with two modules that import each other, and two overlapping loads. Module 0 requests `a`, module
1 requests `b`. The first hook call is answered re-entrantly; the second one later, after a second load of
module 1 was started. -/
def exampleHost : Config :=
  initial [] [[.finish 0 (.ok 1)], [], []]
    [.addModule [⟨[97], []⟩], .addModule [⟨[98], []⟩], .start 0, .start 1, .finish 0 (.ok 0)]

/-- Non-vacuity: after the run the first load is fulfilled, and so both modules are loaded, but the second
load still waits for the host's answer to its own call. -/
example : (run 40 exampleHost).stack.length = 0 ∧
    outcomeOf (run 40 exampleHost).world 0 = some .fulfilled ∧
    outcomeOf (run 40 exampleHost).world 1 = none ∧
    (run 40 exampleHost).world.outstanding = [⟨1, 1, ⟨[98], []⟩⟩] ∧
    (run 40 exampleHost).world.mods.map (·.linked) = [true, true] := by decide +kernel

/-- Non-vacuity: an error reported by the host rejects the load with that error; a later answer is
ignored. -/
example :
    let c := run 60 (initial [] []
      [.addModule [⟨[97], []⟩, ⟨[98], []⟩], .addModule [], .start 0, .finish 1 (.error 7), .finish 0 (.ok 1)])
    c.stack.length = 0 ∧ outcomeOf c.world 0 = some (.rejected (.host 7)) ∧ c.world.outstanding = [] ∧
    imported c.world.mods 0 ⟨[97], []⟩ = some 1 := by decide +kernel

/-- Non-vacuity: an unsupported attribute, an unknown module and a conflicting answer. -/
example :
    outcomeOf (run 60 (initial [[116]] [] [.addModule [⟨[97], [⟨[120], []⟩]⟩], .start 0])).world 0 =
      some (.rejected .unsupported) ∧
    outcomeOf (run 60 (initial [] [] [.start 3])).world 0 = some (.rejected .invalidModule) ∧
    outcomeOf (run 60 (initial [] []
      [.addModule [⟨[97], []⟩], .addModule [], .start 0, .start 0, .finish 0 (.ok 1), .finish 0 (.ok 0)])).world 1 =
      some (.rejected .conflict) := by decide +kernel

end Verif.Loader
