import Verif.Promises.Authority
/-!
# C16, C17: promises and the rejection tracker
-/

namespace Verif.Promises

variable {V : Type}

/-- C16: a promise settles at most once: once settled, its state and value never change. -/
theorem C16_settles_once {s : St V} {p : Nat} {st : PState} {v : V} (h : Settled s p st v)
    (ops : List (Op V)) : Settled (run s ops) p st v := by
  induction ops generalizing s with
  | nil => exact h
  | cons op ops ih => exact ih (h.step op)

/-- C16: every promise is pending or settled with a value. -/
theorem C16_state {s : St V} (h : Reachable s) {p : Nat} (hp : p < s.promises.length) :
    Pending s p ∨ ∃ st v, Settled s p st v := by
  have hx : s.promises[p]? = some s.promises[p] := List.getElem?_eq_getElem hp
  by_cases hst : s.promises[p].state = .pending
  · exact .inl ⟨_, hx, hst⟩
  · obtain ⟨v, hv, _⟩ := (h.inv.1.1 p _ hx).sett hst
    exact .inr ⟨_, v, hst, _, hx, rfl, hv⟩

/-- The pair of resolving functions an operation calls. -/
def pairCalled : Op V → Option Nat
  | .reject r _ _ _ => some r
  | .resolveValue r _ _ => some r
  | .resolveSelf r _ _ _ _ => some r
  | .resolveObject r _ => some r
  | _ => none

/-- Pair `r` has been used. -/
def Used (s : St V) (r : Nat) : Prop := ∃ x, s.resolvers[r]? = some x ∧ x.already = true

theorem useResolver_none {s : St V} {r : Nat} (h : Used s r) : s.useResolver r = none := by
  obtain ⟨x, hx, ha⟩ := h
  simp [St.useResolver, hx, ha]

theorem Used.mono {s : St V} {r : Nat} (h : Used s r) (op : Op V) : Used (step s op) r := by
  have app : ∀ (t : St V) y, t.resolvers = s.resolvers ++ [y] → Used t r := by
    intro t y ht
    obtain ⟨x, hx, ha⟩ := h
    refine ⟨x, ?_, ha⟩
    have hl : r < s.resolvers.length := by
      rcases Nat.lt_or_ge r s.resolvers.length with h | h
      · exact h
      · rw [List.getElem?_eq_none h] at hx; cases hx
    rw [ht, List.getElem?_append_left hl, hx]
  have eq : ∀ t : St V, t.resolvers = s.resolvers → Used t r := by
    intro t ht
    obtain ⟨x, hx, ha⟩ := h
    exact ⟨x, by rw [ht, hx], ha⟩
  have use : ∀ r' u, s.useResolver r' = some u → Used u.2 r := by
    intro r' u hu
    unfold St.useResolver at hu
    cases hx' : s.resolvers[r']? with
    | none => rw [hx'] at hu; cases hu
    | some y =>
      rw [hx'] at hu
      simp only at hu
      cases hy : y.already with
      | true => simp [hy] at hu
      | false =>
        simp only [hy, Bool.false_eq_true, if_false, Option.some.injEq] at hu
        subst hu
        obtain ⟨x, hx, ha⟩ := h
        have hne : r' ≠ r := by
          rintro rfl
          rw [hx] at hx'
          cases hx'
          rw [hy] at ha
          cases ha
        exact ⟨x, by simp only [List.getElem?_set_ne hne, hx], ha⟩
  have keep : ∀ t t' : St V, Used t r → t'.resolvers = t.resolvers → Used t' r := by
    rintro t t' ⟨x, hx, ha⟩ e
    exact ⟨x, by rw [e, hx], ha⟩
  cases op with
  | create oom =>
    simp only [step, St.create]
    cases oom with
    | true => exact eq _ rfl
    | false => exact app _ _ rfl
  | reject r' v fail t =>
    simp only [step]
    cases hr : s.useResolver r' with
    | none => exact h
    | some u => exact keep _ _ (use r' u hr) (reject_fields u.2 u.1 v fail t).1
  | resolveValue r' v fail =>
    simp only [step]
    cases hr : s.useResolver r' with
    | none => exact h
    | some u => exact keep _ _ (use r' u hr) (fulfill_fields u.2 u.1 v fail).1
  | resolveSelf r' e o fail t =>
    simp only [step]
    cases hr : s.useResolver r' with
    | none => exact h
    | some u =>
      simp only [St.rejectSelf]
      cases o with
      | true => exact keep _ _ (use r' u hr) rfl
      | false => exact keep _ _ (use r' u hr) (reject_fields u.2 u.1 e fail t).1
  | resolveObject r' v =>
    simp only [step]
    cases hr : s.useResolver r' with
    | none => exact h
    | some u => exact keep _ _ (use r' u hr) rfl
  | getterThrows i e fail t =>
    simp only [step]
    cases hi : s.inflight[i]? with
    | none => exact h
    | some u =>
      exact eq _ (reject_fields { s with inflight := s.inflight.eraseIdx i } u.1 e fail t).1
  | notThenable i fail =>
    simp only [step]
    cases hi : s.inflight[i]? with
    | none => exact h
    | some u =>
      exact eq _ (fulfill_fields { s with inflight := s.inflight.eraseIdx i } u.1 u.2 fail).1
  | thenable i oom =>
    simp only [step]
    cases hi : s.inflight[i]? with
    | none => exact h
    | some u =>
      simp only [St.scheduleThenable]
      cases oom with
      | true => exact eq _ rfl
      | false => exact app _ _ rfl
  | getterAborts i =>
    simp only [step]
    cases hi : s.inflight[i]? with
    | none => exact h
    | some u => exact eq _ rfl
  | «then» p call fail =>
    obtain ⟨_, _, h3⟩ := performThen_fields s p call fail
    rcases h3 with h3 | ⟨h3, _⟩
    · exact eq _ h3
    · exact app _ _ h3
  | drain oom =>
    simp only [step, St.drain]
    cases oom with
    | true => exact eq _ rfl
    | false => exact eq _ rfl
  | dispatched p =>
    simp only [step]
    split
    · cases hx : s.promises[p]? with
      | none => exact h
      | some x =>
        simp only [St.afterDispatch]
        cases x.handled with
        | true => exact eq _ rfl
        | false => exact eq _ rfl
    · exact h

theorem used_after {s : St V} {op : Op V} {r : Nat} (hop : pairCalled op = some r)
    (hr : r < s.resolvers.length) : Used (step s op) r := by
  have hx : s.resolvers[r]? = some s.resolvers[r] := List.getElem?_eq_getElem hr
  cases ha : s.resolvers[r].already with
  | true => exact Used.mono ⟨_, hx, ha⟩ op
  | false =>
    have hu : s.useResolver r = some (s.resolvers[r].promise, { s with
        resolvers := s.resolvers.set r { s.resolvers[r] with already := true } }) := by
      unfold St.useResolver
      simp [hx, ha]
    have hused : Used ({ s with
        resolvers := s.resolvers.set r { s.resolvers[r] with already := true } } : St V) r :=
      ⟨{ s.resolvers[r] with already := true }, by simp [hr], rfl⟩
    have keep : ∀ t t' : St V, Used t r → t'.resolvers = t.resolvers → Used t' r := by
      rintro t t' ⟨x, hx, ha⟩ e
      exact ⟨x, by rw [e, hx], ha⟩
    cases op <;> simp only [pairCalled, Option.some.injEq, reduceCtorEq] at hop
    · subst hop
      simp only [step, hu]
      exact keep _ _ hused (reject_fields _ _ _ _ _).1
    · subst hop
      simp only [step, hu]
      exact keep _ _ hused (fulfill_fields _ _ _ _).1
    · subst hop
      simp only [step, hu, St.rejectSelf]
      split
      · exact keep _ _ hused rfl
      · exact keep _ _ hused (reject_fields _ _ _ _ _).1
    · subst hop
      simp only [step, hu]
      exact keep _ _ hused rfl

/-- C16: only the first call of a pair of resolving functions has an effect: after any call of either
function, whatever happens in between, a further call of either changes nothing at all. -/
theorem C16_first_call_wins {s : St V} {op op' : Op V} {r : Nat} (hop : pairCalled op = some r)
    (hop' : pairCalled op' = some r) (hr : r < s.resolvers.length) (between : List (Op V)) :
    step (run (step s op) between) op' = run (step s op) between := by
  have hu : Used (run (step s op) between) r := by
    have h0 := used_after (s := s) hop hr
    generalize step s op = t at h0
    induction between generalizing t with
    | nil => exact h0
    | cons o os ih => exact ih _ (h0.mono o)
  generalize run (step s op) between = t at hu
  have hn := useResolver_none hu
  cases op' <;> simp only [pairCalled, Option.some.injEq, reduceCtorEq] at hop' <;>
    subst hop' <;> simp only [step, hn]

/-- C16: and that first call does settle the promise: an unused pair belongs to a pending promise, so
its first call with a value that is not an object fulfils it, rejecting rejects it, and resolving it
with itself rejects it (unless there is no memory for the error). -/
theorem C16_first_call_settles {s : St V} (h : Reachable s) {r p : Nat}
    (hr : s.resolvers[r]? = some { promise := p, already := false }) (v : V) (fail : Option Nat)
    (t : Bool) :
    Pending s p ∧
    Settled (step s (.resolveValue r v fail)) p .fulfilled v ∧
    Settled (step s (.reject r v fail t)) p .rejected v ∧
    Settled (step s (.resolveSelf r v false fail t)) p .rejected v := by
  have hpos : 0 < auth s.resolvers s.inflight p := by
    have : 0 < s.resolvers.countP (fun r => r.promise = p ∧ r.already = false) := by
      rw [List.countP_pos_iff]
      exact ⟨_, List.mem_of_getElem? hr, by simp⟩
    simp only [auth]
    omega
  have hp := (h.ainv p).2 hpos
  obtain ⟨x, hx, hst⟩ := hp
  have hu : s.useResolver r = some (p, { s with
      resolvers := s.resolvers.set r { promise := p, already := true } }) := by
    unfold St.useResolver
    simp [hr]
  have hful : ∀ u : St V, u.promises = s.promises →
      Settled (u.fulfill p v fail) p .fulfilled v := by
    intro u hu
    refine ⟨by decide, x.settle .fulfilled v, ?_, rfl, rfl⟩
    unfold St.fulfill
    rw [hu, hx]
    simp only [if_pos hst]
    rw [(trigger_fields _ _ _ _).1]
    simp only [St.modify, gm_eq, hu, hx, Option.map_some]
  have hrej : ∀ u : St V, u.promises = s.promises →
      Settled (u.reject p v fail t) p .rejected v := by
    intro u hu
    refine ⟨by decide, x.settle .rejected v, ?_, rfl, rfl⟩
    unfold St.reject
    rw [hu, hx]
    simp only [if_pos hst]
    rw [(trigger_fields _ _ _ _).1, (track_fields _ _ _ _).1]
    simp only [St.note, St.modify, gm_eq, hu, hx, Option.map_some]
  refine ⟨⟨x, hx, hst⟩, ?_, ?_, ?_⟩
  · simp only [step, hu]; exact hful _ rfl
  · simp only [step, hu]; exact hrej _ rfl
  · simp only [step, hu, St.rejectSelf]; exact hrej _ rfl

/-- C16: at any time at most one party (an unused pair, or a resolution waiting for a `then` getter)
can settle a given promise, and none if it is settled. -/
theorem C16_one_authority {s : St V} (h : Reachable s) (p : Nat) :
    s.resolvers.countP (fun r => r.promise = p ∧ r.already = false) +
      s.inflight.countP (fun x => x.1 = p) ≤ 1 ∧
    (∀ st v, Settled s p st v →
      s.resolvers.countP (fun r => r.promise = p ∧ r.already = false) +
        s.inflight.countP (fun x => x.1 = p) = 0) := by
  obtain ⟨h1, h2⟩ := h.ainv p
  refine ⟨h1, fun st v hs => ?_⟩
  rcases Nat.eq_zero_or_pos (auth s.resolvers s.inflight p) with h0 | h0
  · exact h0
  · exact absurd (h2 h0) hs.not_pending

/-- C16: reactions.  No reaction job is queued for a pending promise.  For a promise settled with
state `st` and value `v`, the jobs queued are for some of the `then` calls, in call order and each at
most once, of the type of the settlement and with `v` as argument; if memory never ran out they are for
all the `then` calls. -/
theorem C16_reactions {s : St V} (h : Reachable s) (p : Nat) :
    (Pending s p → jobsOf p s.trace = []) ∧
    (∀ st v, Settled s p st v →
      (∀ j ∈ jobsOf p s.trace, j.1.type = st ∧ j.2 = v) ∧
      ((jobsOf p s.trace).map (·.1.call)).Sublist (callsOf p s.trace) ∧
      (Ample s.trace → (jobsOf p s.trace).map (·.1.call) = callsOf p s.trace)) := by
  constructor
  · rintro ⟨x, hx, hst⟩
    exact ((h.inv.1.1 p x hx).pend hst).2.1
  · rintro st v ⟨hne, x, hx, hst, hv⟩
    obtain ⟨v', h1, _, _, h4, h5, h6, _⟩ := (h.inv.1.1 p x hx).sett (by rw [hst]; exact hne)
    rw [hv] at h1
    cases h1
    rw [hst] at h4
    exact ⟨h4, h5, h6⟩

/-- C16 needs memory: when the queue cannot grow in the middle of a settlement, the promise is settled
but the remaining `then` calls never get a job. -/
theorem C16_out_of_memory_violated :
    ∃ ops : List (Op Nat), Reachable (run St.init ops) ∧ Settled (run St.init ops) 0 .fulfilled 7 ∧
      callsOf 0 (run St.init ops).trace = [1, 2] ∧
      (jobsOf 0 (run St.init ops).trace).map (·.1.call) = [1] := by
  refine ⟨[.create false, .then 0 1 none, .then 0 2 none, .resolveValue 0 7 (some 1)],
    Reachable.init.run _, ⟨by decide, ?_⟩, by decide +kernel, by decide +kernel⟩
  exact ⟨_, rfl, by decide +kernel, by decide +kernel⟩

/-- The low-level `Heap::promise_fulfill`/`promise_reject` give no such guarantee: they overwrite a
settled promise. -/
theorem C16_raw_settle_violated :
    ∃ (ops : List (Op Nat)), Settled (run St.init ops) 0 .fulfilled 7 ∧
      Settled ((run St.init ops).rawSettle 0 .rejected 8) 0 .rejected 8 := by
  refine ⟨[.create false, .resolveValue 0 7 none], ⟨by decide, _, rfl, ?_, ?_⟩,
    ⟨by decide, _, rfl, ?_, ?_⟩⟩ <;> decide +kernel

/-! ## C17 -/

/-- C17: the rejected promises are exactly those settled as rejected, each reported once as rejected. -/
theorem C17_rejected {s : St V} (h : Reachable s) (p : Nat) :
    (p ∈ rejectedIn s.trace ↔ ∃ v, Settled s p .rejected v) ∧ (rejectedIn s.trace).Nodup := by
  refine ⟨⟨fun hp => ?_, ?_⟩, h.inv.2.rejNodup⟩
  · have hl : p < s.promises.length := by
      rcases Nat.lt_or_ge p s.promises.length with hl | hl
      · exact hl
      · exact absurd hp (h.inv.1.2 p hl).2.2
    have hx : s.promises[p]? = some s.promises[p] := List.getElem?_eq_getElem hl
    have hok := h.inv.1.1 p _ hx
    by_cases hst : s.promises[p].state = .pending
    · exact absurd hp (hok.pend hst).2.2.1
    · obtain ⟨v, h1, _, _, _, _, _, h7⟩ := hok.sett hst
      exact ⟨v, by decide, _, hx, h7.1 hp, h1⟩
  · rintro ⟨v, _, x, hx, hst, _⟩
    obtain ⟨_, _, _, _, _, _, _, h7⟩ := (h.inv.1.1 p x hx).sett (by rw [hst]; decide)
    exact h7.2 hst

/-- C17: what the host gets when it drains the tracker: exactly the promises that have been rejected,
on which `then` has never been called, and that it has not been given before, in the order of
rejection (if memory never ran out). -/
theorem C17_drain {s : St V} (h : Reachable s) (ha : Ample s.trace) :
    (step s (.drain false)).trace = s.trace ++ [.notify ((rejectedIn s.trace).filter
      (fun p => callsOf p s.trace = [] ∧ p ∉ notifiedIn s.trace))] := by
  have := h.inv.2.aboutEq ha
  simp only [step, St.drain, Bool.false_eq_true, if_false, St.note, this]
  rfl

/-- C17, whatever happens to memory: what the host gets when it drains the tracker are promises that
have been rejected, have no handler and have not been given to it before, in the order of rejection. -/
theorem C17_drain_sound {s : St V} (h : Reachable s) :
    ∃ ps, (step s (.drain false)).trace = s.trace ++ [.notify ps] ∧
      ps.Sublist ((rejectedIn s.trace).filter
        (fun p => callsOf p s.trace = [] ∧ p ∉ notifiedIn s.trace)) :=
  ⟨s.about, rfl, h.inv.2.aboutSub⟩

/-- C17: over any history no promise is notified twice, reported twice, or announced as
`rejectionhandled` twice; only rejected promises are notified; and `rejectionhandled` is announced for
exactly the promises that were reported while unhandled and got a handler later. -/
theorem C17_history {s : St V} (h : Reachable s) :
    (notifiedIn s.trace).Nodup ∧ (reportedIn s.trace).Nodup ∧ (rejectionHandledIn s.trace).Nodup ∧
    (∀ p ∈ notifiedIn s.trace, ∃ v, Settled s p .rejected v) ∧
    (∀ p ∈ reportedIn s.trace, p ∈ notifiedIn s.trace) ∧
    (∀ p, p ∈ rejectionHandledIn s.trace ↔ p ∈ reportedIn s.trace ∧ callsOf p s.trace ≠ []) :=
  ⟨h.inv.2.notNodup, h.inv.2.repNodup, h.inv.2.rhNodup,
    fun p hp => (C17_rejected h p).1.1 (h.inv.2.notSub p hp), h.inv.2.repNot, h.inv.2.rh⟩

/-- C17: `rejectionhandled` is announced by the very `then` call that is the first on a promise
already reported, and by no other operation. -/
theorem C17_rejectionhandled_when {s : St V} (h : Reachable s) (p c : Nat) (fail : Option Nat)
    (hp : p < s.promises.length) :
    rejectionHandledIn (step s (.then p c fail)).trace = rejectionHandledIn s.trace ++
      if p ∈ reportedIn s.trace ∧ callsOf p s.trace = [] then [p] else [] := by
  have hx : s.promises[p]? = some s.promises[p] := List.getElem?_eq_getElem hp
  obtain ⟨es, fs, h1, h2, h3, _⟩ := performThen_eq h.inv c hx fail
  simp only [step, h3, rejectionHandledIn_append, rejectionHandledIn, h2, List.append_nil]
  rcases h1 with ⟨rfl, h1⟩ | ⟨rfl, h1⟩
  · rw [if_neg h1]; rfl
  · rw [if_pos h1]; rfl

/-- C17: when the host reports back after firing the event, the promise counts as reported exactly if
it still has no handler. -/
theorem C17_dispatch {s : St V} (h : Reachable s) (p : Nat) (hb : p ∈ s.batch) :
    reportedIn (step s (.dispatched p)).trace = reportedIn s.trace ++
      if callsOf p s.trace = [] then [p] else [] := by
  have hl : p < s.promises.length := by
    rcases Nat.lt_or_ge p s.promises.length with hl | hl
    · exact hl
    · exact absurd (h.inv.2.notSub p (h.inv.2.batchNot p hb)) (h.inv.1.2 p hl).2.2
  have hx : s.promises[p]? = some s.promises[p] := List.getElem?_eq_getElem hl
  have hok := (h.inv.1.1 p _ hx).handled
  simp only [step, if_pos hb, hx]
  unfold St.afterDispatch
  cases hh : s.promises[p].handled with
  | true =>
    rw [hh] at hok
    rw [if_neg (hok.1 rfl)]
    simp
  | false =>
    rw [hh] at hok
    have hc : callsOf p s.trace = [] := by simpa using hok
    rw [if_pos hc]
    simp [St.note, reportedIn_append, reportedIn]

/-- C17 needs memory: a rejection for which the tracker finds no memory is never reported. -/
theorem C17_out_of_memory_violated :
    ∃ ops : List (Op Nat), Settled (run St.init ops) 0 .rejected 7 ∧
      callsOf 0 (run St.init ops).trace = [] ∧
      notifiedIn (run St.init ops).trace = [] ∧
      (step (run St.init ops) (.drain false)).trace = (run St.init ops).trace ++ [.notify []] := by
  refine ⟨[.create false, .reject 0 7 none true], ⟨by decide, _, rfl, ?_, ?_⟩, ?_, ?_, ?_⟩ <;>
    decide +kernel

/-! ## Concrete cases -/

/-- Two `then` calls before and one after the resolution, a second call of the pair ignored, a
resolution through a thenable, and the life of an unhandled rejection. -/
def demo : List (Op Nat) :=
  [.create false, .then 0 10 none, .then 0 11 none, .resolveValue 0 7 none, .reject 0 8 none false,
   .then 0 12 none, .create false, .resolveObject 4 5, .reject 4 9 none false, .thenable 0 false,
   .reject 5 9 none false, .drain false, .dispatched 4, .then 4 13 none, .drain false]

example : Reachable (run (St.init : St Nat) demo) := Reachable.init.run _

example : (run (St.init : St Nat) demo).trace =
    [.thenCalled 0 10, .thenCalled 0 11, .job ⟨0, 10, .fulfilled⟩ 7, .job ⟨0, 11, .fulfilled⟩ 7,
     .thenCalled 0 12, .job ⟨0, 12, .fulfilled⟩ 7, .thenableJob 4, .rejected 4, .notify [4],
     .reported 4, .thenCalled 4 13, .rejectionHandled 4, .job ⟨4, 13, .rejected⟩ 9, .notify []] := by
  decide +kernel

/-- `C16_settles_once`, `C16_reactions`: promise 0 is fulfilled with 7. -/
example : Settled (run (St.init : St Nat) demo) 0 .fulfilled 7 :=
  ⟨by decide, _, rfl, by decide +kernel, by decide +kernel⟩

example : Ample (run (St.init : St Nat) demo).trace := by unfold Ample; decide +kernel

/-- `C16_first_call_wins`: pair 0. -/
example : (0 : Nat) < (run (St.init : St Nat) [.create false]).resolvers.length := by
  decide +kernel

/-- `C16_first_call_settles`: the pair of a new promise. -/
example : (run (St.init : St Nat) [.create false]).resolvers[0]? =
    some { promise := 0, already := false } := by decide +kernel

/-- `C17_dispatch`: promise 4 is in the batch after the first drain. -/
example : 4 ∈ (run (St.init : St Nat) (demo.take 12)).batch := by decide +kernel

end Verif.Promises
