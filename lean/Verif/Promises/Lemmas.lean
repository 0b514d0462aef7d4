import Verif.Promises.Spec
/-!
# Invariants of promises and of the tracker
-/

namespace Verif.Promises

variable {V : Type}

theorem gm_eq {α : Type} (l : List α) (p : Nat) (f : α → α) :
    (l.modify p f)[p]? = l[p]?.map f := by
  rw [List.getElem?_modify]
  cases l[p]? <;> simp

theorem gm_ne {α : Type} (l : List α) {p q : Nat} (f : α → α) (h : p ≠ q) :
    (l.modify p f)[q]? = l[q]? := by
  rw [List.getElem?_modify]
  cases l[q]? <;> simp [h]

/-! ## Reading traces -/

theorem callsOf_append (p : Nat) (a b : List (Event V)) :
    callsOf p (a ++ b) = callsOf p a ++ callsOf p b := by
  induction a with
  | nil => rfl
  | cons e a ih =>
    cases e <;> simp only [List.cons_append, callsOf, ih]
    split <;> simp

theorem jobsOf_append (p : Nat) (a b : List (Event V)) :
    jobsOf p (a ++ b) = jobsOf p a ++ jobsOf p b := by
  induction a with
  | nil => rfl
  | cons e a ih =>
    cases e <;> simp only [List.cons_append, jobsOf, ih]
    split <;> simp

theorem rejectedIn_append (a b : List (Event V)) :
    rejectedIn (a ++ b) = rejectedIn a ++ rejectedIn b := by
  induction a with
  | nil => rfl
  | cons e a ih => cases e <;> simp [rejectedIn, ih]

theorem notifiedIn_append (a b : List (Event V)) :
    notifiedIn (a ++ b) = notifiedIn a ++ notifiedIn b := by
  induction a with
  | nil => rfl
  | cons e a ih => cases e <;> simp [notifiedIn, ih]

theorem reportedIn_append (a b : List (Event V)) :
    reportedIn (a ++ b) = reportedIn a ++ reportedIn b := by
  induction a with
  | nil => rfl
  | cons e a ih => cases e <;> simp [reportedIn, ih]

theorem rejectionHandledIn_append (a b : List (Event V)) :
    rejectionHandledIn (a ++ b) = rejectionHandledIn a ++ rejectionHandledIn b := by
  induction a with
  | nil => rfl
  | cons e a ih => cases e <;> simp [rejectionHandledIn, ih]

theorem Ample.left {a b : List (Event V)} (h : Ample (a ++ b)) : Ample a :=
  fun hm => h (List.mem_append_left _ hm)

/-- The events of queueing these reactions. -/
def jobEvents (v : V) (rs : List Reaction) : List (Event V) := rs.map (fun r => .job r v)

theorem jobEvents_calls (p : Nat) (v : V) (rs : List Reaction) : callsOf p (jobEvents v rs) = [] := by
  induction rs with
  | nil => rfl
  | cons r rs ih => simpa [jobEvents, callsOf] using ih

theorem jobEvents_rejected (v : V) (rs : List Reaction) : rejectedIn (jobEvents v rs) = [] := by
  induction rs with
  | nil => rfl
  | cons r rs ih => simpa [jobEvents, rejectedIn] using ih

theorem jobEvents_notified (v : V) (rs : List Reaction) : notifiedIn (jobEvents v rs) = [] := by
  induction rs with
  | nil => rfl
  | cons r rs ih => simpa [jobEvents, notifiedIn] using ih

theorem jobEvents_reported (v : V) (rs : List Reaction) : reportedIn (jobEvents v rs) = [] := by
  induction rs with
  | nil => rfl
  | cons r rs ih => simpa [jobEvents, reportedIn] using ih

theorem jobEvents_handled (v : V) (rs : List Reaction) :
    rejectionHandledIn (jobEvents v rs) = [] := by
  induction rs with
  | nil => rfl
  | cons r rs ih => simpa [jobEvents, rejectionHandledIn] using ih

theorem jobEvents_jobs (p : Nat) (v : V) (rs : List Reaction) (h : ∀ r ∈ rs, r.promise = p) :
    jobsOf p (jobEvents v rs) = rs.map (fun r => (r, v)) := by
  induction rs with
  | nil => rfl
  | cons r rs ih =>
    have h1 := h r (List.mem_cons_self ..)
    have h2 := ih (fun r hr => h r (List.mem_cons_of_mem _ hr))
    simp only [jobEvents] at h2
    simp [jobEvents, jobsOf, h1, h2]

theorem jobEvents_jobs_other (p q : Nat) (hq : q ≠ p) (v : V) (rs : List Reaction)
    (h : ∀ r ∈ rs, r.promise = p) : jobsOf q (jobEvents v rs) = [] := by
  induction rs with
  | nil => rfl
  | cons r rs ih =>
    have h1 := h r (List.mem_cons_self ..)
    have h2 := ih (fun r hr => h r (List.mem_cons_of_mem _ hr))
    simp only [jobEvents] at h2
    simp [jobEvents, jobsOf, h1, h2, Ne.symm hq]

/-- What `trigger` does. -/
theorem trigger_eq (v : V) : ∀ (rs : List Reaction) (fail : Option Nat) (s : St V),
    ∃ done tail, done <+: rs ∧ (tail = [] ∧ done = rs ∨ tail = [Event.oom]) ∧
      trigger v rs fail s = { s with trace := s.trace ++ jobEvents v done ++ tail }
  | [], fail, s => ⟨[], [], List.prefix_refl _, .inl ⟨rfl, rfl⟩, by simp [trigger, jobEvents]⟩
  | r :: rs, some 0, s =>
    ⟨[], [.oom], List.nil_prefix, .inr rfl, by simp [trigger, jobEvents, St.note]⟩
  | r :: rs, some (k + 1), s => by
    obtain ⟨done, tail, h1, h2, h3⟩ := trigger_eq v rs (some k) (s.note (.job r v))
    refine ⟨r :: done, tail, List.cons_prefix_cons.2 ⟨rfl, h1⟩, ?_, ?_⟩
    · rcases h2 with ⟨a, b⟩ | h2
      · exact .inl ⟨a, by rw [b]⟩
      · exact .inr h2
    · rw [trigger, h3]; simp [St.note, jobEvents]
  | r :: rs, none, s => by
    obtain ⟨done, tail, h1, h2, h3⟩ := trigger_eq v rs none (s.note (.job r v))
    refine ⟨r :: done, tail, List.cons_prefix_cons.2 ⟨rfl, h1⟩, ?_, ?_⟩
    · rcases h2 with ⟨a, b⟩ | h2
      · exact .inl ⟨a, by rw [b]⟩
      · exact .inr h2
    · rw [trigger, h3]; simp [St.note, jobEvents]

/-! ## One promise -/

/-- What is true of one promise, given the events that concern it. -/
structure SlotOK (p : Nat) (x : Slot V) (calls : List Nat) (jobs : List (Reaction × V))
    (rej ample : Prop) : Prop where
  handled : x.handled = true ↔ calls ≠ []
  ful : ∀ r ∈ x.onFulfilled, r.promise = p ∧ r.type = .fulfilled
  rejs : ∀ r ∈ x.onRejected, r.promise = p ∧ r.type = .rejected
  pend : x.state = .pending → x.result = none ∧ jobs = [] ∧ ¬ rej ∧
    (x.onFulfilled.map (·.call)).Sublist calls ∧ (x.onRejected.map (·.call)).Sublist calls ∧
    (ample → x.onFulfilled.map (·.call) = calls ∧ x.onRejected.map (·.call) = calls)
  sett : x.state ≠ .pending → ∃ v, x.result = some v ∧ x.onFulfilled = [] ∧ x.onRejected = [] ∧
    (∀ j ∈ jobs, j.1.type = x.state ∧ j.2 = v) ∧ (jobs.map (·.1.call)).Sublist calls ∧
    (ample → jobs.map (·.1.call) = calls) ∧ (rej ↔ x.state = .rejected)

/-- The invariant of all promises. -/
def SInv (ps : List (Slot V)) (tr : List (Event V)) : Prop :=
  (∀ p x, ps[p]? = some x →
    SlotOK p x (callsOf p tr) (jobsOf p tr) (p ∈ rejectedIn tr) (Ample tr)) ∧
  (∀ p, ps.length ≤ p → callsOf p tr = [] ∧ jobsOf p tr = [] ∧ p ∉ rejectedIn tr)

theorem SlotOK.weaken {p : Nat} {x : Slot V} {c : List Nat} {j : List (Reaction × V)}
    {rej rej' am am' : Prop} (h : SlotOK p x c j rej am) (hr : rej ↔ rej') (ha : am' → am) :
    SlotOK p x c j rej' am' where
  handled := h.handled
  ful := h.ful
  rejs := h.rejs
  pend hp := by
    obtain ⟨a, b, c, d, e, f⟩ := h.pend hp
    exact ⟨a, b, fun h => c (hr.2 h), d, e, fun h => f (ha h)⟩
  sett hp := by
    obtain ⟨v, a, b, c, d, e, f, g⟩ := h.sett hp
    exact ⟨v, a, b, c, d, e, fun h => f (ha h), hr.symm.trans g⟩

/-- Events that concern no promise. -/
theorem SInv.neutral {ps : List (Slot V)} {tr es : List (Event V)} (h : SInv ps tr)
    (h1 : ∀ p, callsOf p es = []) (h2 : ∀ p, jobsOf p es = []) (h3 : rejectedIn es = []) :
    SInv ps (tr ++ es) := by
  refine ⟨fun p x hx => ?_, fun p hp => ?_⟩
  · rw [callsOf_append, jobsOf_append, rejectedIn_append, h1, h2, h3, List.append_nil,
      List.append_nil, List.append_nil]
    exact (h.1 p x hx).weaken Iff.rfl Ample.left
  · rw [callsOf_append, jobsOf_append, rejectedIn_append, h1, h2, h3, List.append_nil,
      List.append_nil, List.append_nil]
    exact h.2 p hp

/-- Events that concern only `p`, and an update of `p` only. -/
theorem SInv.update {ps : List (Slot V)} {tr es : List (Event V)} {p : Nat} {x : Slot V}
    {f : Slot V → Slot V} (h : SInv ps tr) (hx : ps[p]? = some x)
    (h1 : ∀ q, q ≠ p → callsOf q es = []) (h2 : ∀ q, q ≠ p → jobsOf q es = [])
    (h3 : ∀ q, q ≠ p → q ∉ rejectedIn es)
    (hp : SlotOK p (f x) (callsOf p (tr ++ es)) (jobsOf p (tr ++ es)) (p ∈ rejectedIn (tr ++ es))
      (Ample (tr ++ es))) :
    SInv (ps.modify p f) (tr ++ es) := by
  refine ⟨fun q y hy => ?_, fun q hq => ?_⟩
  · by_cases hqp : q = p
    · subst hqp
      rw [gm_eq, hx] at hy
      simp only [Option.map_some, Option.some.injEq] at hy
      exact hy ▸ hp
    · rw [gm_ne _ _ (fun e => hqp e.symm)] at hy
      rw [callsOf_append, jobsOf_append, h1 q hqp, h2 q hqp, List.append_nil, List.append_nil]
      refine (h.1 q y hy).weaken ?_ Ample.left
      rw [rejectedIn_append, List.mem_append]
      exact ⟨.inl, fun h => h.elim id (fun h => absurd h (h3 q hqp))⟩
  · rw [List.length_modify] at hq
    have hqp : q ≠ p := by
      intro e
      subst e
      rw [List.getElem?_eq_none hq] at hx
      cases hx
    rw [callsOf_append, jobsOf_append, h1 q hqp, h2 q hqp, List.append_nil, List.append_nil,
      rejectedIn_append, List.mem_append]
    obtain ⟨a, b, c⟩ := h.2 q hq
    exact ⟨a, b, fun h => h.elim c (h3 q hqp)⟩

theorem SInv.addPromise {ps : List (Slot V)} {tr : List (Event V)} (h : SInv ps tr) :
    SInv (ps ++ [.fresh]) tr := by
  refine ⟨fun p x hx => ?_, fun p hp => h.2 p (by simp at hp; omega)⟩
  by_cases hp : p < ps.length
  · rw [List.getElem?_append_left hp] at hx
    exact h.1 p x hx
  · obtain ⟨a, b, c⟩ := h.2 p (by omega)
    rw [List.getElem?_append_right (by omega)] at hx
    have : p - ps.length = 0 := by
      rcases Nat.eq_zero_or_pos (p - ps.length) with h | h
      · exact h
      · rw [List.getElem?_eq_none (by simp; omega)] at hx; cases hx
    rw [this] at hx
    simp only [List.getElem?_cons_zero, Option.some.injEq] at hx
    subst hx
    rw [a, b]
    constructor
    · simp [Slot.fresh]
    · simp [Slot.fresh]
    · simp [Slot.fresh]
    · simp [Slot.fresh, c]
    · simp [Slot.fresh]

/-- Settling a pending promise and queueing its reactions. -/
theorem SInv.settle {ps : List (Slot V)} {tr mid tail : List (Event V)} {p : Nat} {x : Slot V}
    {st : PState} {v : V} {rs done : List Reaction} (h : SInv ps tr) (hx : ps[p]? = some x)
    (hpend : x.state = .pending) (hst : st ≠ .pending)
    (hrs : st = .fulfilled ∧ rs = x.onFulfilled ∨ st = .rejected ∧ rs = x.onRejected)
    (hmid : ∀ q, callsOf q mid = [] ∧ jobsOf q mid = [])
    (hrej : rejectedIn mid = if st = .rejected then [p] else [])
    (hdone : done <+: rs) (htail : tail = [] ∧ done = rs ∨ tail = [Event.oom]) :
    SInv (ps.modify p (fun x => x.settle st v)) (tr ++ (mid ++ jobEvents v done ++ tail)) := by
  have hok := h.1 p x hx
  obtain ⟨_, hj, hr, hf, hr', heq⟩ := hok.pend hpend
  have hall : ∀ r ∈ rs, r.promise = p ∧ r.type = st := by
    rcases hrs with ⟨rfl, rfl⟩ | ⟨rfl, rfl⟩
    · exact hok.ful
    · exact hok.rejs
  have hall' : ∀ r ∈ done, r.promise = p ∧ r.type = st := fun r hr => hall r (hdone.subset hr)
  have hsub : (rs.map (·.call)).Sublist (callsOf p tr) := by
    rcases hrs with ⟨_, rfl⟩ | ⟨_, rfl⟩
    · exact hf
    · exact hr'
  have htl : (∀ q, callsOf q tail = [] ∧ jobsOf q tail = []) ∧ rejectedIn tail = [] := by
    rcases htail with ⟨rfl, _⟩ | rfl <;> simp [callsOf, jobsOf, rejectedIn]
  have hcalls : ∀ q, callsOf q (mid ++ jobEvents v done ++ tail) = [] := by
    intro q
    rw [callsOf_append, callsOf_append, (hmid q).1, jobEvents_calls, (htl.1 q).1]
    rfl
  have hrejs : rejectedIn (mid ++ jobEvents v done ++ tail) = if st = .rejected then [p] else [] := by
    rw [rejectedIn_append, rejectedIn_append, hrej, jobEvents_rejected, htl.2]
    simp
  refine h.update hx (fun q _ => hcalls q) (fun q hq => ?_) (fun q hq => ?_) ?_
  · rw [jobsOf_append, jobsOf_append, (hmid q).2, (htl.1 q).2,
      jobEvents_jobs_other p q hq v done (fun r hr => (hall' r hr).1)]
    rfl
  · rw [hrejs]
    split <;> simp [hq]
  · have hjobs : jobsOf p (tr ++ (mid ++ jobEvents v done ++ tail)) =
        done.map (fun r => (r, v)) := by
      rw [jobsOf_append, jobsOf_append, jobsOf_append, hj, (hmid p).2, (htl.1 p).2,
        jobEvents_jobs p v done (fun r hr => (hall' r hr).1)]
      simp
    rw [callsOf_append, hcalls, List.append_nil, hjobs, rejectedIn_append, hrejs]
    constructor
    · exact hok.handled
    · simp [Slot.settle]
    · simp [Slot.settle]
    · intro h; exact absurd h hst
    · intro _
      refine ⟨v, rfl, rfl, rfl, ?_, ?_, ?_, ?_⟩
      · intro j hj
        obtain ⟨r, hr, rfl⟩ := List.mem_map.1 hj
        exact ⟨(hall' r hr).2, rfl⟩
      · rw [List.map_map]
        exact (hdone.sublist.map _).trans hsub
      · intro ha
        have hdr : done = rs := by
          rcases htail with ⟨_, h⟩ | rfl
          · exact h
          · exact absurd (by simp) ha
        rw [List.map_map]
        have hfun : ((fun j : Reaction × V => j.1.call) ∘ fun r => (r, v)) =
            fun r : Reaction => r.call := rfl
        rw [hfun, hdr]
        have hb := heq ha.left
        rcases hrs with ⟨_, rfl⟩ | ⟨_, rfl⟩
        · exact hb.1
        · exact hb.2
      · show p ∈ _ ↔ st = .rejected
        by_cases h : st = .rejected <;> simp [h, hr]

/-! ## The tracker -/

/-- The promises that are rejected, have no handler, and have not been notified. -/
def due (tr : List (Event V)) : List Nat :=
  (rejectedIn tr).filter (fun p => callsOf p tr = [] ∧ p ∉ notifiedIn tr)

/-- What is true of the tracker. -/
structure TInv (about outstanding batch : List Nat) (tr : List (Event V)) : Prop where
  rejNodup : (rejectedIn tr).Nodup
  aboutSub : about.Sublist (due tr)
  aboutEq : Ample tr → about = due tr
  notSub : ∀ p ∈ notifiedIn tr, p ∈ rejectedIn tr
  notNodup : (notifiedIn tr).Nodup
  batchNodup : batch.Nodup
  batchNot : ∀ p ∈ batch, p ∈ notifiedIn tr
  batchRep : ∀ p ∈ batch, p ∉ reportedIn tr
  repNot : ∀ p ∈ reportedIn tr, p ∈ notifiedIn tr
  repNodup : (reportedIn tr).Nodup
  out : ∀ p, p ∈ outstanding ↔ p ∈ reportedIn tr ∧ callsOf p tr = []
  rh : ∀ p, p ∈ rejectionHandledIn tr ↔ p ∈ reportedIn tr ∧ callsOf p tr ≠ []
  rhNodup : (rejectionHandledIn tr).Nodup

/-- Events the tracker does not see. -/
theorem TInv.neutral {a o b : List Nat} {tr es : List (Event V)} (h : TInv a o b tr)
    (h1 : ∀ p, callsOf p es = []) (h2 : rejectedIn es = []) (h3 : notifiedIn es = [])
    (h4 : reportedIn es = []) (h5 : rejectionHandledIn es = []) : TInv a o b (tr ++ es) := by
  have e1 : ∀ p, callsOf p (tr ++ es) = callsOf p tr := fun p => by
    rw [callsOf_append, h1, List.append_nil]
  have e2 : rejectedIn (tr ++ es) = rejectedIn tr := by rw [rejectedIn_append, h2, List.append_nil]
  have e3 : notifiedIn (tr ++ es) = notifiedIn tr := by rw [notifiedIn_append, h3, List.append_nil]
  have e4 : reportedIn (tr ++ es) = reportedIn tr := by rw [reportedIn_append, h4, List.append_nil]
  have e5 : rejectionHandledIn (tr ++ es) = rejectionHandledIn tr := by
    rw [rejectionHandledIn_append, h5, List.append_nil]
  have e6 : due (tr ++ es) = due tr := by simp only [due, e1, e2, e3]
  constructor
  · rw [e2]; exact h.rejNodup
  · rw [e6]; exact h.aboutSub
  · rw [e6]; exact fun ha => h.aboutEq ha.left
  · rw [e2, e3]; exact h.notSub
  · rw [e3]; exact h.notNodup
  · exact h.batchNodup
  · rw [e3]; exact h.batchNot
  · rw [e4]; exact h.batchRep
  · rw [e3, e4]; exact h.repNot
  · rw [e4]; exact h.repNodup
  · simp only [e4, e1]; exact h.out
  · simp only [e4, e1, e5]; exact h.rh
  · rw [e5]; exact h.rhNodup

theorem TInv.oom {a o b : List Nat} {tr : List (Event V)} (h : TInv a o b tr) :
    TInv a o b (tr ++ [.oom]) := h.neutral (fun _ => rfl) rfl rfl rfl rfl

/-- `rejected p`, followed by what the tracker is told. -/
theorem TInv.rejected {a o b : List Nat} {tr : List (Event V)} {p : Nat} (h : TInv a o b tr)
    (hp : p ∉ rejectedIn tr) (a' : List Nat)
    (ha : a' = (if callsOf p tr = [] then a ++ [p] else a)) :
    TInv a' o b (tr ++ [.rejected p]) := by
  have e1 : ∀ q, callsOf q (tr ++ [.rejected p]) = callsOf q tr := fun q => by
    simp [callsOf_append, callsOf]
  have e2 : rejectedIn (tr ++ [Event.rejected p]) = rejectedIn tr ++ [p] := by
    simp [rejectedIn_append, rejectedIn]
  have e3 : notifiedIn (tr ++ [Event.rejected p]) = notifiedIn tr := by
    simp [notifiedIn_append, notifiedIn]
  have e4 : reportedIn (tr ++ [Event.rejected p]) = reportedIn tr := by
    simp [reportedIn_append, reportedIn]
  have e5 : rejectionHandledIn (tr ++ [Event.rejected p]) = rejectionHandledIn tr := by
    simp [rejectionHandledIn_append, rejectionHandledIn]
  have hpn : p ∉ notifiedIn tr := fun hn => hp (h.notSub p hn)
  have e6 : due (tr ++ [Event.rejected p]) =
      if callsOf p tr = [] then due tr ++ [p] else due tr := by
    simp only [due, e1, e2, e3, List.filter_append]
    by_cases hc : callsOf p tr = [] <;> simp [hc, hpn]
  constructor
  · rw [e2, List.nodup_append]
    refine ⟨h.rejNodup, by simp, ?_⟩
    intro x hx y hy
    simp at hy
    subst hy
    exact fun e => hp (e ▸ hx)
  · rw [e6, ha]
    by_cases hc : callsOf p tr = []
    · simp only [hc, if_true]; exact List.Sublist.append h.aboutSub (List.Sublist.refl _)
    · simp only [hc, if_false]; exact h.aboutSub
  · intro hA
    rw [e6, ha, h.aboutEq hA.left]
  · rw [e2, e3]; exact fun q hq => List.mem_append_left _ (h.notSub q hq)
  · rw [e3]; exact h.notNodup
  · exact h.batchNodup
  · rw [e3]; exact h.batchNot
  · rw [e4]; exact h.batchRep
  · rw [e3, e4]; exact h.repNot
  · rw [e4]; exact h.repNodup
  · simp only [e4, e1]; exact h.out
  · simp only [e4, e1, e5]; exact h.rh
  · rw [e5]; exact h.rhNodup

/-- `rejected p` where the tracker has no memory for it. -/
theorem TInv.rejected_oom {a o b : List Nat} {tr : List (Event V)} {p : Nat} (h : TInv a o b tr)
    (hp : p ∉ rejectedIn tr) : TInv a o b (tr ++ [.rejected p, .oom]) := by
  have h' := (h.rejected hp _ rfl).oom
  rw [List.append_assoc] at h'
  refine { h' with
    aboutSub := ?_
    aboutEq := ?_ }
  · refine List.Sublist.trans ?_ h'.aboutSub
    split
    · exact List.sublist_append_left _ _
    · exact List.Sublist.refl _
  · intro hA
    exact absurd (by simp) hA

theorem sublist_nodup_erase {l m : List Nat} (hs : l.Sublist m) (hm : m.Nodup) (p : Nat) :
    (l.filter (· ≠ p)) = l.erase p := by
  have : l.Nodup := hm.sublist hs
  rw [this.erase_eq_filter]
  apply List.filter_congr
  intro x _
  by_cases hx : x = p <;> simp [hx]

theorem due_nodup {a o b : List Nat} {tr : List (Event V)} (h : TInv a o b tr) : (due tr).Nodup :=
  h.rejNodup.sublist List.filter_sublist

/-- The trace facts of a `then` call. -/
theorem due_thenCalled (tr : List (Event V)) (p c : Nat) :
    due (tr ++ [.thenCalled p c]) = (due tr).filter (· ≠ p) := by
  have e2 : rejectedIn (tr ++ [Event.thenCalled p c]) = rejectedIn tr := by
    simp [rejectedIn_append, rejectedIn]
  have e3 : notifiedIn (tr ++ [Event.thenCalled p c]) = notifiedIn tr := by
    simp [notifiedIn_append, notifiedIn]
  simp only [due, e2, e3, List.filter_filter]
  apply List.filter_congr
  intro q _
  rw [callsOf_append]
  by_cases hq : q = p
  · subst hq; simp [callsOf]
  · simp [callsOf, hq, Ne.symm hq]

/-- A `then` call of which the tracker is not told, because the promise is not rejected or already
has a handler. -/
theorem TInv.then_quiet {a o b : List Nat} {tr : List (Event V)} {p : Nat} (c : Nat)
    (h : TInv a o b tr) (hp : p ∉ rejectedIn tr ∨ callsOf p tr ≠ []) :
    TInv a o b (tr ++ [.thenCalled p c]) := by
  have e2 : rejectedIn (tr ++ [Event.thenCalled p c]) = rejectedIn tr := by
    simp [rejectedIn_append, rejectedIn]
  have e3 : notifiedIn (tr ++ [Event.thenCalled p c]) = notifiedIn tr := by
    simp [notifiedIn_append, notifiedIn]
  have e4 : reportedIn (tr ++ [Event.thenCalled p c]) = reportedIn tr := by
    simp [reportedIn_append, reportedIn]
  have e5 : rejectionHandledIn (tr ++ [Event.thenCalled p c]) = rejectionHandledIn tr := by
    simp [rejectionHandledIn_append, rejectionHandledIn]
  have hc : ∀ q, q ∈ rejectedIn tr →
      (callsOf q (tr ++ [Event.thenCalled p c]) = [] ↔ callsOf q tr = []) := by
    intro q hq
    rw [callsOf_append]
    by_cases hqp : p = q
    · subst hqp
      rcases hp with hp | hp
      · exact absurd hq hp
      · simp [hp]
    · simp [callsOf, hqp]
  have hrep : ∀ q, q ∈ reportedIn tr → q ∈ rejectedIn tr := fun q hq => h.notSub q (h.repNot q hq)
  have e6 : due (tr ++ [Event.thenCalled p c]) = due tr := by
    rw [due_thenCalled, List.filter_eq_self]
    intro q hq
    have hq' := List.mem_filter.1 hq
    simp only [decide_eq_true_eq] at hq'
    simp only [ne_eq, decide_not, Bool.not_eq_eq_eq_not, Bool.not_true, decide_eq_false_iff_not]
    rintro rfl
    rcases hp with hp | hp
    · exact hp hq'.1
    · exact hp hq'.2.1
  constructor
  · rw [e2]; exact h.rejNodup
  · rw [e6]; exact h.aboutSub
  · rw [e6]; exact fun ha => h.aboutEq ha.left
  · rw [e2, e3]; exact h.notSub
  · rw [e3]; exact h.notNodup
  · exact h.batchNodup
  · rw [e3]; exact h.batchNot
  · rw [e4]; exact h.batchRep
  · rw [e3, e4]; exact h.repNot
  · rw [e4]; exact h.repNodup
  · intro q
    rw [e4, h.out]
    constructor
    · rintro ⟨a, b⟩; exact ⟨a, (hc q (hrep q a)).2 b⟩
    · rintro ⟨a, b⟩; exact ⟨a, (hc q (hrep q a)).1 b⟩
  · intro q
    rw [e4, e5, h.rh]
    constructor
    · rintro ⟨a, b⟩; exact ⟨a, fun x => b ((hc q (hrep q a)).1 x)⟩
    · rintro ⟨a, b⟩; exact ⟨a, fun x => b ((hc q (hrep q a)).2 x)⟩
  · rw [e5]; exact h.rhNodup

/-- The first `then` call on a rejected promise: what `on_handle` does. -/
theorem TInv.then_first {s : St V} {p : Nat} (c : Nat)
    (h : TInv s.about s.outstanding s.batch s.trace) (hp : p ∈ rejectedIn s.trace)
    (hc : callsOf p s.trace = []) :
    ∃ es, (es = [] ∧ p ∉ reportedIn s.trace ∨ es = [Event.rejectionHandled p] ∧
        p ∈ reportedIn s.trace) ∧
      ((s.note (.thenCalled p c)).onHandle p) =
        { s with
          about := s.about.erase p
          outstanding := s.outstanding.filter (· ≠ p)
          trace := s.trace ++ (Event.thenCalled p c :: es) } ∧
      TInv (s.about.erase p) (s.outstanding.filter (· ≠ p)) s.batch
        (s.trace ++ (Event.thenCalled p c :: es)) := by
  have hnot : p ∈ s.about → p ∉ reportedIn s.trace := by
    intro ha hr
    have := (List.mem_filter.1 (h.aboutSub.subset ha)).2
    simp only [decide_eq_true_eq] at this
    exact this.2 (h.repNot p hr)
  have key : ∀ es : List (Event V), (es = [] ∧ p ∉ reportedIn s.trace ∨
        es = [Event.rejectionHandled p] ∧ p ∈ reportedIn s.trace) →
      TInv (s.about.erase p) (s.outstanding.filter (· ≠ p)) s.batch
        (s.trace ++ (Event.thenCalled p c :: es)) := by
    intro es hes
    have hes' : rejectedIn es = [] ∧ notifiedIn es = [] ∧ reportedIn es = [] ∧
        (∀ q, callsOf q es = []) := by
      rcases hes with ⟨rfl, _⟩ | ⟨rfl, _⟩ <;> simp [rejectedIn, notifiedIn, reportedIn, callsOf]
    obtain ⟨r1, r2, r3, r4⟩ := hes'
    have e1 : ∀ q, callsOf q (s.trace ++ (Event.thenCalled p c :: es)) =
        callsOf q s.trace ++ if p = q then [c] else [] := by
      intro q
      simp only [callsOf_append, callsOf, r4]
    have e2 : rejectedIn (s.trace ++ (Event.thenCalled p c :: es)) = rejectedIn s.trace := by
      simp only [rejectedIn_append, rejectedIn, r1, List.append_nil]
    have e3 : notifiedIn (s.trace ++ (Event.thenCalled p c :: es)) = notifiedIn s.trace := by
      simp only [notifiedIn_append, notifiedIn, r2, List.append_nil]
    have e4 : reportedIn (s.trace ++ (Event.thenCalled p c :: es)) = reportedIn s.trace := by
      simp only [reportedIn_append, reportedIn, r3, List.append_nil]
    have e5 : rejectionHandledIn (s.trace ++ (Event.thenCalled p c :: es)) =
        rejectionHandledIn s.trace ++ rejectionHandledIn es := by
      simp only [rejectionHandledIn_append, rejectionHandledIn]
    have e6 : due (s.trace ++ (Event.thenCalled p c :: es)) = (due s.trace).filter (· ≠ p) := by
      rw [← due_thenCalled _ p c]
      simp only [due, e1, e2, e3, rejectedIn_append, rejectedIn, notifiedIn_append, notifiedIn,
        List.append_nil, callsOf_append, callsOf]
    have hne : p ∉ rejectionHandledIn s.trace := fun hr => ((h.rh p).1 hr).2 hc
    constructor
    · rw [e2]; exact h.rejNodup
    · rw [e6, ← sublist_nodup_erase h.aboutSub (due_nodup h)]
      exact h.aboutSub.filter _
    · intro hA
      rw [e6, ← sublist_nodup_erase h.aboutSub (due_nodup h), ← h.aboutEq hA.left]
    · rw [e2, e3]; exact h.notSub
    · rw [e3]; exact h.notNodup
    · exact h.batchNodup
    · rw [e3]; exact h.batchNot
    · rw [e4]; exact h.batchRep
    · rw [e3, e4]; exact h.repNot
    · rw [e4]; exact h.repNodup
    · intro q
      rw [e4, e1, List.mem_filter, h.out]
      by_cases hq : p = q
      · subst hq; simp
      · simp [hq, Ne.symm hq]
    · intro q
      rw [e4, e1, e5, List.mem_append, h.rh]
      by_cases hq : p = q
      · subst hq
        rcases hes with ⟨rfl, hr⟩ | ⟨rfl, hr⟩ <;> simp [rejectionHandledIn, hr]
      · rcases hes with ⟨rfl, hr⟩ | ⟨rfl, hr⟩ <;> simp [rejectionHandledIn, hq, Ne.symm hq]
    · rw [e5]
      rcases hes with ⟨rfl, _⟩ | ⟨rfl, _⟩
      · simpa [rejectionHandledIn] using h.rhNodup
      · rw [List.nodup_append]
        refine ⟨h.rhNodup, by simp [rejectionHandledIn], ?_⟩
        intro x hx y hy e
        simp [rejectionHandledIn] at hy
        subst hy
        exact hne (e ▸ hx)
  by_cases ha : p ∈ s.about
  · refine ⟨[], .inl ⟨rfl, hnot ha⟩, ?_, key _ (.inl ⟨rfl, hnot ha⟩)⟩
    have hno : p ∉ s.outstanding := fun ho => hnot ha ((h.out p).1 ho).1
    have : s.outstanding.filter (· ≠ p) = s.outstanding := by
      rw [List.filter_eq_self]
      intro q hq
      simp only [decide_eq_true_eq]
      rintro rfl
      exact hno hq
    rw [St.onHandle, if_pos (c := p ∈ (s.note (.thenCalled p c)).about) ha, this]
    rfl
  · have hae : s.about.erase p = s.about := List.erase_of_not_mem ha
    by_cases ho : p ∈ s.outstanding
    · have hr := ((h.out p).1 ho).1
      refine ⟨[.rejectionHandled p], .inr ⟨rfl, hr⟩, ?_, key _ (.inr ⟨rfl, hr⟩)⟩
      rw [St.onHandle, if_neg (c := p ∈ (s.note (.thenCalled p c)).about) ha,
        if_pos (c := p ∈ (s.note (.thenCalled p c)).outstanding) ho, hae]
      simp [St.note]
    · have hr : p ∉ reportedIn s.trace := fun hr => ho ((h.out p).2 ⟨hr, hc⟩)
      refine ⟨[], .inl ⟨rfl, hr⟩, ?_, key _ (.inl ⟨rfl, hr⟩)⟩
      have : s.outstanding.filter (· ≠ p) = s.outstanding := by
        rw [List.filter_eq_self]
        intro q hq
        simp only [decide_eq_true_eq]
        rintro rfl
        exact ho hq
      rw [St.onHandle, if_neg (c := p ∈ (s.note (.thenCalled p c)).about) ha,
        if_neg (c := p ∈ (s.note (.thenCalled p c)).outstanding) ho, hae, this]
      rfl

/-- Draining. -/
theorem TInv.drained {a o b : List Nat} {tr : List (Event V)} (h : TInv a o b tr) :
    TInv [] o (b ++ a) (tr ++ [.notify a]) := by
  have e1 : ∀ q, callsOf q (tr ++ [.notify a]) = callsOf q tr := fun q => by
    simp [callsOf_append, callsOf]
  have e2 : rejectedIn (tr ++ [Event.notify a]) = rejectedIn tr := by
    simp [rejectedIn_append, rejectedIn]
  have e3 : notifiedIn (tr ++ [Event.notify a]) = notifiedIn tr ++ a := by
    simp [notifiedIn_append, notifiedIn]
  have e4 : reportedIn (tr ++ [Event.notify a]) = reportedIn tr := by
    simp [reportedIn_append, reportedIn]
  have e5 : rejectionHandledIn (tr ++ [Event.notify a]) = rejectionHandledIn tr := by
    simp [rejectionHandledIn_append, rejectionHandledIn]
  have hsub : ∀ p ∈ a, p ∈ rejectedIn tr ∧ callsOf p tr = [] ∧ p ∉ notifiedIn tr := by
    intro p hp
    have := List.mem_filter.1 (h.aboutSub.subset hp)
    simpa using this
  have hand : a.Nodup := (due_nodup h).sublist h.aboutSub
  constructor
  · rw [e2]; exact h.rejNodup
  · exact List.nil_sublist _
  · intro hA
    have := h.aboutEq hA.left
    symm
    rw [due, List.filter_eq_nil_iff]
    intro p hp
    rw [e2] at hp
    rw [e1, e3]
    simp only [List.mem_append, not_or, decide_eq_true_eq, not_and, Classical.not_not]
    intro hc hn
    rw [this]
    simp only [due, List.mem_filter, decide_eq_true_eq]
    exact ⟨hp, hc, hn⟩
  · rw [e2, e3]
    intro p hp
    rcases List.mem_append.1 hp with hp | hp
    · exact h.notSub p hp
    · exact (hsub p hp).1
  · rw [e3, List.nodup_append]
    refine ⟨h.notNodup, hand, ?_⟩
    rintro x hx y hy rfl
    exact (hsub x hy).2.2 hx
  · rw [List.nodup_append]
    refine ⟨h.batchNodup, hand, ?_⟩
    rintro x hx y hy rfl
    exact (hsub x hy).2.2 (h.batchNot x hx)
  · rw [e3]
    intro p hp
    rcases List.mem_append.1 hp with hp | hp
    · exact List.mem_append_left _ (h.batchNot p hp)
    · exact List.mem_append_right _ hp
  · rw [e4]
    intro p hp
    rcases List.mem_append.1 hp with hp | hp
    · exact h.batchRep p hp
    · exact fun hr => (hsub p hp).2.2 (h.repNot p hr)
  · rw [e3, e4]
    exact fun p hp => List.mem_append_left _ (h.repNot p hp)
  · rw [e4]; exact h.repNodup
  · simp only [e4, e1]; exact h.out
  · simp only [e4, e1, e5]; exact h.rh
  · rw [e5]; exact h.rhNodup

/-- A dispatch whose promise got a handler. -/
theorem TInv.dispatch_handled {a o b : List Nat} {tr : List (Event V)} (h : TInv a o b tr)
    (p : Nat) : TInv a o (b.erase p) tr :=
  { h with
    batchNodup := h.batchNodup.erase p
    batchNot := fun q hq => h.batchNot q (List.mem_of_mem_erase hq)
    batchRep := fun q hq => h.batchRep q (List.mem_of_mem_erase hq) }

/-- A dispatch whose promise still has no handler. -/
theorem TInv.dispatch_unhandled {a o b : List Nat} {tr : List (Event V)} (h : TInv a o b tr)
    {p : Nat} (hp : p ∈ b) (hc : callsOf p tr = []) :
    TInv a (p :: o.filter (· ≠ p)) (b.erase p) (tr ++ [.reported p]) := by
  have e1 : ∀ q, callsOf q (tr ++ [.reported p]) = callsOf q tr := fun q => by
    simp [callsOf_append, callsOf]
  have e2 : rejectedIn (tr ++ [Event.reported p]) = rejectedIn tr := by
    simp [rejectedIn_append, rejectedIn]
  have e3 : notifiedIn (tr ++ [Event.reported p]) = notifiedIn tr := by
    simp [notifiedIn_append, notifiedIn]
  have e4 : reportedIn (tr ++ [Event.reported p]) = reportedIn tr ++ [p] := by
    simp [reportedIn_append, reportedIn]
  have e5 : rejectionHandledIn (tr ++ [Event.reported p]) = rejectionHandledIn tr := by
    simp [rejectionHandledIn_append, rejectionHandledIn]
  have e6 : due (tr ++ [Event.reported p]) = due tr := by simp only [due, e1, e2, e3]
  constructor
  · rw [e2]; exact h.rejNodup
  · rw [e6]; exact h.aboutSub
  · rw [e6]; exact fun ha => h.aboutEq ha.left
  · rw [e2, e3]; exact h.notSub
  · rw [e3]; exact h.notNodup
  · exact h.batchNodup.erase p
  · rw [e3]; exact fun q hq => h.batchNot q (List.mem_of_mem_erase hq)
  · rw [e4]
    intro q hq
    have hqp : q ≠ p := by
      rintro rfl
      exact (h.batchNodup.not_mem_erase) hq
    simp only [List.mem_append, List.mem_singleton, not_or]
    exact ⟨h.batchRep q (List.mem_of_mem_erase hq), hqp⟩
  · rw [e3, e4]
    intro q hq
    rcases List.mem_append.1 hq with hq | hq
    · exact h.repNot q hq
    · simp at hq; subst hq; exact h.batchNot q hp
  · rw [e4, List.nodup_append]
    refine ⟨h.repNodup, by simp, ?_⟩
    intro x hx y hy e
    simp at hy
    subst hy
    exact h.batchRep y hp (e ▸ hx)
  · intro q
    rw [e4, e1]
    simp only [List.mem_cons, List.mem_filter, h.out, List.mem_append, List.mem_singleton,
      decide_eq_true_eq]
    by_cases hq : q = p
    · subst hq; simp [hc]
    · simp [hq]
  · intro q
    rw [e4, e1, e5, h.rh]
    simp only [List.mem_append, List.mem_singleton]
    by_cases hq : q = p
    · subst hq; simp [hc]
    · simp [hq]
  · rw [e5]; exact h.rhNodup

/-! ## All operations -/

/-- The invariant of a state. -/
def Inv (s : St V) : Prop :=
  SInv s.promises s.trace ∧ TInv s.about s.outstanding s.batch s.trace

theorem inv_init : Inv (St.init : St V) := by
  refine ⟨⟨?_, ?_⟩, ?_⟩
  · intro p x hx; simp [St.init] at hx
  · intro p _; simp [St.init, callsOf, jobsOf, rejectedIn]
  · constructor <;>
      simp [St.init, callsOf, rejectedIn, notifiedIn, reportedIn, rejectionHandledIn, due]

theorem Inv.oom {s : St V} (h : Inv s) : Inv (s.note .oom) :=
  ⟨h.1.neutral (fun _ => rfl) (fun _ => rfl) rfl, h.2.oom⟩

theorem Inv.addPromise {s : St V} (h : Inv s) : Inv s.addPromise := ⟨h.1.addPromise, h.2⟩

theorem tail_neutral {tail : List (Event V)} {done rs : List Reaction}
    (h : tail = [] ∧ done = rs ∨ tail = [Event.oom]) :
    (∀ q, callsOf q tail = []) ∧ (∀ q, jobsOf q tail = []) ∧ rejectedIn tail = [] ∧
      notifiedIn tail = [] ∧ reportedIn tail = [] ∧ rejectionHandledIn tail = [] := by
  rcases h with ⟨rfl, _⟩ | rfl <;>
    simp [callsOf, jobsOf, rejectedIn, notifiedIn, reportedIn, rejectionHandledIn]

theorem TInv.jobs {a o b : List Nat} {tr tail : List (Event V)} {v : V} {done rs : List Reaction}
    (h : TInv a o b tr) (ht : tail = [] ∧ done = rs ∨ tail = [Event.oom]) :
    TInv a o b (tr ++ jobEvents v done ++ tail) := by
  obtain ⟨t1, _, t3, t4, t5, t6⟩ := tail_neutral ht
  exact (h.neutral (fun p => jobEvents_calls p v done) (jobEvents_rejected v done)
    (jobEvents_notified v done) (jobEvents_reported v done) (jobEvents_handled v done)).neutral
    t1 t3 t4 t5 t6

theorem Inv.fulfill {s : St V} (h : Inv s) (p : Nat) (v : V) (fail : Option Nat) :
    Inv (s.fulfill p v fail) := by
  unfold St.fulfill
  cases hx : s.promises[p]? with
  | none => exact h
  | some x =>
    simp only
    by_cases hp : x.state = .pending
    · rw [if_pos hp]
      obtain ⟨done, tail, h1, h2, h3⟩ := trigger_eq v x.onFulfilled fail
        (s.modify p (fun x => x.settle .fulfilled v))
      rw [h3]
      refine ⟨?_, h.2.jobs h2⟩
      have := h.1.settle (v := v) (mid := []) hx hp (by decide) (.inl ⟨rfl, rfl⟩)
        (fun q => by simp [callsOf, jobsOf]) (by simp [rejectedIn]) h1 h2
      simpa [St.modify] using this
    · rw [if_neg hp]; exact h

theorem Inv.reject {s : St V} (h : Inv s) (p : Nat) (v : V) (fail : Option Nat) (t : Bool) :
    Inv (s.reject p v fail t) := by
  unfold St.reject
  cases hx : s.promises[p]? with
  | none => exact h
  | some x =>
    simp only
    by_cases hp : x.state = .pending
    · rw [if_pos hp]
      have hok := h.1.1 p x hx
      obtain ⟨_, _, hnr, _⟩ := hok.pend hp
      obtain ⟨done, tail, h1, h2, h3⟩ := trigger_eq v x.onRejected fail
        (((s.modify p (fun x => x.settle .rejected v)).note (.rejected p)).track p x.handled t)
      rw [h3]
      have hset : ∀ mid : List (Event V), (∀ q, callsOf q mid = [] ∧ jobsOf q mid = []) →
          rejectedIn mid = [p] →
          SInv (s.promises.modify p (fun x => x.settle .rejected v))
            (s.trace ++ (mid ++ jobEvents v done ++ tail)) := fun mid hm hr =>
        h.1.settle (v := v) hx hp (by decide) (.inr ⟨rfl, rfl⟩) hm (by rw [hr]; rfl) h1 h2
      cases hh : x.handled with
      | true =>
        have hc : callsOf p s.trace ≠ [] := hok.handled.1 hh
        refine ⟨?_, ?_⟩
        · have := hset [.rejected p] (by simp [callsOf, jobsOf]) rfl
          simpa [St.track, St.note, St.modify] using this
        · have := h.2.rejected hnr s.about (by rw [if_neg hc])
          simpa [St.track, St.note, St.modify] using this.jobs (v := v) h2
      | false =>
        have hc : callsOf p s.trace = [] := by
          have := hok.handled
          rw [hh] at this
          simpa using this
        cases t with
        | true =>
          refine ⟨?_, ?_⟩
          · have := hset [.rejected p, .oom] (by simp [callsOf, jobsOf]) rfl
            simpa [St.track, St.onReject, St.note, St.modify] using this
          · have := h.2.rejected_oom hnr
            simpa [St.track, St.onReject, St.note, St.modify] using this.jobs (v := v) h2
        | false =>
          refine ⟨?_, ?_⟩
          · have := hset [.rejected p] (by simp [callsOf, jobsOf]) rfl
            simpa [St.track, St.onReject, St.note, St.modify] using this
          · have := h.2.rejected hnr (s.about ++ [p]) (by rw [if_pos hc])
            simpa [St.track, St.onReject, St.note, St.modify] using this.jobs (v := v) h2
    · rw [if_neg hp]; exact h

theorem Inv.drain {s : St V} (h : Inv s) (oom : Bool) : Inv (s.drain oom) := by
  unfold St.drain
  cases oom with
  | true => exact h.oom
  | false => exact ⟨h.1.neutral (fun _ => rfl) (fun _ => rfl) rfl, h.2.drained⟩

theorem Inv.dispatched {s : St V} (h : Inv s) {p : Nat} (hb : p ∈ s.batch) {x : Slot V}
    (hx : s.promises[p]? = some x) : Inv (s.afterDispatch p x.handled) := by
  unfold St.afterDispatch
  cases hh : x.handled with
  | true => exact ⟨h.1, h.2.dispatch_handled p⟩
  | false =>
    have hc : callsOf p s.trace = [] := by
      have := (h.1.1 p x hx).handled
      rw [hh] at this
      simpa using this
    exact ⟨h.1.neutral (fun _ => rfl) (fun _ => rfl) rfl, h.2.dispatch_unhandled hb hc⟩

/-- Marking a promise handled by a `then` call: what is left to do is to register the reactions.
`t` counts as an incomplete trace until then. -/
theorem markHandled_eq {s : St V} (h : Inv s) {p : Nat} {x : Slot V} (c : Nat)
    (hx : s.promises[p]? = some x) :
    ∃ es a o, (s.note (.thenCalled p c)).markHandled p x =
        { s with
          promises := s.promises.modify p (fun x => { x with handled := true })
          about := a
          outstanding := o
          trace := s.trace ++ (Event.thenCalled p c :: es) } ∧
      (es = [] ∧ ¬ (p ∈ reportedIn s.trace ∧ callsOf p s.trace = []) ∨
        es = [Event.rejectionHandled p] ∧ p ∈ reportedIn s.trace ∧ callsOf p s.trace = []) ∧
      TInv a o s.batch (s.trace ++ (Event.thenCalled p c :: es)) := by
  have hok := h.1.1 p x hx
  by_cases hc : x.state = .rejected ∧ x.handled = false
  · have hcalls : callsOf p s.trace = [] := by
      have := hok.handled
      rw [hc.2] at this
      simpa using this
    have hrej : p ∈ rejectedIn s.trace := by
      obtain ⟨_, _, _, _, _, _, _, hr⟩ := hok.sett (by rw [hc.1]; decide)
      exact hr.2 hc.1
    obtain ⟨es, h1, h2, h3⟩ := h.2.then_first c hrej hcalls
    refine ⟨es, _, _, ?_, ?_, h3⟩
    · rw [St.markHandled, if_pos hc, h2]
      rfl
    · rcases h1 with ⟨a, b⟩ | ⟨a, b⟩
      · exact .inl ⟨a, fun h => b h.1⟩
      · exact .inr ⟨a, b, hcalls⟩
  · have hq : p ∉ rejectedIn s.trace ∨ callsOf p s.trace ≠ [] := by
      by_cases hst : x.state = .rejected
      · right
        apply hok.handled.1
        cases hh : x.handled
        · exact absurd ⟨hst, hh⟩ hc
        · rfl
      · left
        by_cases hp : x.state = .pending
        · exact (hok.pend hp).2.2.1
        · obtain ⟨_, _, _, _, _, _, _, hr⟩ := hok.sett hp
          exact fun h => hst (hr.1 h)
    refine ⟨[], s.about, s.outstanding, ?_, .inl ⟨rfl, ?_⟩, h.2.then_quiet c hq⟩
    · rw [St.markHandled, if_neg hc]; rfl
    · rintro ⟨a, b⟩
      rcases hq with hq | hq
      · exact hq (h.2.notSub p (h.2.repNot p a))
      · exact hq b

/-- The promises after a `then` call on `p`. -/
theorem then_sinv {s : St V} (h : Inv s) {p : Nat} {x : Slot V} (c : Nat)
    (hx : s.promises[p]? = some x) (es : List (Event V))
    (hes : es = [] ∨ es = [Event.rejectionHandled p]) (f : Slot V → Slot V) (fs : List (Event V))
    (hf : f x = { x with handled := true } ∧ fs = [.oom] ∨
      (x.state = .pending ∧ f x = { x with
          handled := true
          onFulfilled := x.onFulfilled ++ [{ promise := p, call := c, type := .fulfilled }] } ∧
        fs = [.oom]) ∨
      (x.state = .pending ∧ f x = { x with
          handled := true
          onFulfilled := x.onFulfilled ++ [{ promise := p, call := c, type := .fulfilled }]
          onRejected := x.onRejected ++ [{ promise := p, call := c, type := .rejected }] } ∧
        fs = []) ∨
      (x.state ≠ .pending ∧ f x = { x with handled := true } ∧ ∃ v, x.result = some v ∧
        fs = [.job { promise := p, call := c, type := x.state } v])) :
    SInv (s.promises.modify p f) (s.trace ++ (Event.thenCalled p c :: (es ++ fs))) := by
  have hok := h.1.1 p x hx
  have c1 : ∀ q, callsOf q (Event.thenCalled p c :: (es ++ fs)) = if p = q then [c] else [] := by
    intro q
    have : callsOf q (es ++ fs) = [] := by
      rw [callsOf_append]
      rcases hes with rfl | rfl <;> rcases hf with ⟨_, rfl⟩ | ⟨_, _, rfl⟩ | ⟨_, _, rfl⟩ |
        ⟨_, _, v, _, rfl⟩ <;> simp [callsOf]
    simp only [callsOf, this]
  have r1 : rejectedIn (Event.thenCalled p c :: (es ++ fs)) = [] := by
    simp only [rejectedIn, rejectedIn_append]
    rcases hes with rfl | rfl <;> rcases hf with ⟨_, rfl⟩ | ⟨_, _, rfl⟩ | ⟨_, _, rfl⟩ |
        ⟨_, _, v, _, rfl⟩ <;> simp [rejectedIn]
  have j1 : ∀ q, jobsOf q (Event.thenCalled p c :: (es ++ fs)) = jobsOf q fs := by
    intro q
    simp only [jobsOf, jobsOf_append]
    rcases hes with rfl | rfl <;> simp [jobsOf]
  have am : Ample (s.trace ++ (Event.thenCalled p c :: (es ++ fs))) →
      Ample s.trace ∧ Event.oom ∉ fs := by
    intro ha
    refine ⟨ha.left, fun hm => ha ?_⟩
    simp [hm]
  refine h.1.update hx (fun q hq => by rw [c1, if_neg (Ne.symm hq)]) (fun q hq => ?_)
    (fun q hq => by rw [r1]; simp) ?_
  · rw [j1]
    rcases hf with ⟨_, rfl⟩ | ⟨_, _, rfl⟩ | ⟨_, _, rfl⟩ | ⟨_, _, v, _, rfl⟩ <;>
      simp [jobsOf, Ne.symm hq]
  · rw [callsOf_append, c1, if_pos rfl, jobsOf_append, j1, rejectedIn_append, r1, List.append_nil]
    have hsub : ∀ l : List Nat, l.Sublist (callsOf p s.trace) →
        l.Sublist (callsOf p s.trace ++ [c]) := fun l hl => hl.trans (List.sublist_append_left _ _)
    rcases hf with ⟨hfx, rfl⟩ | ⟨hp, hfx, rfl⟩ | ⟨hp, hfx, rfl⟩ | ⟨hp, hfx, v, hv, rfl⟩
    · rw [hfx]
      simp only [jobsOf, List.append_nil]
      constructor
      · simp
      · exact hok.ful
      · exact hok.rejs
      · intro hp
        obtain ⟨a, b, c', d, e, _⟩ := hok.pend hp
        exact ⟨a, b, c', hsub _ d, hsub _ e, fun ha => absurd (by simp) (am ha).2⟩
      · intro hp
        obtain ⟨v, a, b, c', d, e, _, g⟩ := hok.sett hp
        exact ⟨v, a, b, c', d, hsub _ e, fun ha => absurd (by simp) (am ha).2, g⟩
    · rw [hfx]
      simp only [jobsOf, List.append_nil]
      obtain ⟨a, b, c', d, e, _⟩ := hok.pend hp
      constructor
      · simp
      · intro r hr
        simp only [List.mem_append, List.mem_singleton] at hr
        rcases hr with hr | rfl
        · exact hok.ful r hr
        · exact ⟨rfl, rfl⟩
      · exact hok.rejs
      · intro _
        refine ⟨a, b, c', ?_, hsub _ e, fun ha => absurd (by simp) (am ha).2⟩
        simp only [List.map_append, List.map_cons, List.map_nil]
        exact List.Sublist.append d (List.Sublist.refl _)
      · intro hn; exact absurd hp hn
    · rw [hfx]
      simp only [jobsOf, List.append_nil]
      obtain ⟨a, b, c', d, e, f'⟩ := hok.pend hp
      constructor
      · simp
      · intro r hr
        simp only [List.mem_append, List.mem_singleton] at hr
        rcases hr with hr | rfl
        · exact hok.ful r hr
        · exact ⟨rfl, rfl⟩
      · intro r hr
        simp only [List.mem_append, List.mem_singleton] at hr
        rcases hr with hr | rfl
        · exact hok.rejs r hr
        · exact ⟨rfl, rfl⟩
      · intro _
        refine ⟨a, b, c', ?_, ?_, fun ha => ?_⟩
        · simp only [List.map_append, List.map_cons, List.map_nil]
          exact List.Sublist.append d (List.Sublist.refl _)
        · simp only [List.map_append, List.map_cons, List.map_nil]
          exact List.Sublist.append e (List.Sublist.refl _)
        · obtain ⟨g1, g2⟩ := f' (am (by simpa using ha)).1
          simp only [List.map_append, List.map_cons, List.map_nil, g1, g2, and_self]
      · intro hn; exact absurd hp hn
    · rw [hfx]
      obtain ⟨v', a, b, c', d, e, f', g⟩ := hok.sett hp
      rw [hv] at a
      cases a
      simp only [jobsOf, if_true]
      constructor
      · simp
      · exact hok.ful
      · exact hok.rejs
      · intro hq; exact absurd hq hp
      · intro _
        refine ⟨v, hv, b, c', ?_, ?_, ?_, g⟩
        · intro j hj
          simp only [List.mem_append, List.mem_singleton] at hj
          rcases hj with hj | rfl
          · exact d j hj
          · exact ⟨rfl, rfl⟩
        · simp only [List.map_append, List.map_cons, List.map_nil]
          exact List.Sublist.append e (List.Sublist.refl _)
        · intro ha
          simp only [List.map_append, List.map_cons, List.map_nil, f' (am ha).1]

theorem modify_append_fresh {p : Nat} {x : Slot V} {l : List (Slot V)} (hx : l[p]? = some x)
    (y : Slot V) (f g : Slot V → Slot V) :
    (l.modify p f ++ [y]).modify p g = l.modify p (g ∘ f) ++ [y] := by
  have hp : p < l.length := by
    rcases Nat.lt_or_ge p l.length with h | h
    · exact h
    · rw [List.getElem?_eq_none h] at hx; cases hx
  apply List.ext_getElem?
  intro i
  by_cases hi : i = p
  · subst hi
    rw [gm_eq, List.getElem?_append_left (by simpa using hp),
      List.getElem?_append_left (by simpa using hp), gm_eq,
      gm_eq]
    cases l[i]? <;> rfl
  · rw [gm_ne _ _ (fun e => hi e.symm)]
    by_cases hl : i < l.length
    · rw [List.getElem?_append_left (by simpa using hl),
        List.getElem?_append_left (by simpa using hl),
        gm_ne _ _ (fun e => hi e.symm), gm_ne _ _ (fun e => hi e.symm)]
    · rw [List.getElem?_append_right (by simp; omega), List.getElem?_append_right (by simp; omega)]
      simp

/-- What `performThen` does to the promises and the trace. -/
theorem performThen_eq {s : St V} (h : Inv s) {p : Nat} {x : Slot V} (c : Nat)
    (hx : s.promises[p]? = some x) (fail : Option Nat) :
    ∃ es fs, (es = [] ∧ ¬ (p ∈ reportedIn s.trace ∧ callsOf p s.trace = []) ∨
        es = [Event.rejectionHandled p] ∧ p ∈ reportedIn s.trace ∧ callsOf p s.trace = []) ∧
      rejectionHandledIn fs = [] ∧
      (s.performThen p c fail).trace = s.trace ++ (Event.thenCalled p c :: (es ++ fs)) ∧
      Inv (s.performThen p c fail) := by
  obtain ⟨es, a, o, h1, h2, h3⟩ := markHandled_eq h c hx
  have hes : es = [] ∨ es = [Event.rejectionHandled p] := h2.imp (·.1) (·.1)
  have hl : p < s.promises.length := by
    rcases Nat.lt_or_ge p s.promises.length with h | h
    · exact h
    · rw [List.getElem?_eq_none h] at hx; cases hx
  -- the tracker part of the result, whatever neutral events follow
  have htr : ∀ fs : List (Event V), (∀ q, callsOf q fs = []) → rejectedIn fs = [] →
      notifiedIn fs = [] → reportedIn fs = [] → rejectionHandledIn fs = [] →
      TInv a o s.batch (s.trace ++ (Event.thenCalled p c :: (es ++ fs))) := by
    intro fs f1 f2 f3 f4 f5
    have := h3.neutral f1 f2 f3 f4 f5
    simpa using this
  have hreg : ∀ fl : Option Nat, ∃ fs, rejectionHandledIn fs = [] ∧
      ((((s.note (.thenCalled p c)).markHandled p x).addPromise.addResolver
        s.promises.length).register p c fl).trace =
          s.trace ++ (Event.thenCalled p c :: (es ++ fs)) ∧
      Inv ((((s.note (.thenCalled p c)).markHandled p x).addPromise.addResolver
        s.promises.length).register p c fl) := by
    intro fl
    rw [h1]
    have hget : ((s.promises.modify p (fun x => { x with handled := true })) ++ [Slot.fresh])[p]? =
        some { x with handled := true } := by
      rw [List.getElem?_append_left (by simpa using hl), gm_eq, hx]
      rfl
    unfold St.register
    simp only [St.addPromise, St.addResolver, hget]
    cases hst : x.state with
    | pending =>
      simp only
      by_cases f0 : fl = some 0
      · rw [if_pos f0]
        refine ⟨[.oom], rfl, by simp [St.note], ?_⟩
        refine ⟨?_, ?_⟩
        · have := (then_sinv h c hx es hes (fun x => { x with handled := true }) [.oom]
            (.inl ⟨rfl, rfl⟩)).addPromise
          simpa [St.note] using this
        · have := htr [.oom] (fun _ => rfl) rfl rfl rfl rfl
          simpa [St.note] using this
      · rw [if_neg f0]
        by_cases f1 : fl = some 1
        · rw [if_pos f1]
          refine ⟨[.oom], rfl, by simp [St.note, St.modify], ?_⟩
          refine ⟨?_, ?_⟩
          · have := (then_sinv h c hx es hes ((fun x => { x with
              onFulfilled := x.onFulfilled ++ [{ promise := p, call := c, type := .fulfilled }] }) ∘
                (fun x => { x with handled := true })) [.oom]
              (.inr (.inl ⟨hst, rfl, rfl⟩))).addPromise
            simpa [St.note, St.modify, modify_append_fresh hx] using this
          · have := htr [.oom] (fun _ => rfl) rfl rfl rfl rfl
            simpa [St.note, St.modify] using this
        · rw [if_neg f1]
          refine ⟨[], rfl, by simp [St.modify], ?_⟩
          refine ⟨?_, ?_⟩
          · have := (then_sinv h c hx es hes ((fun x => { x with
              onFulfilled := x.onFulfilled ++ [{ promise := p, call := c, type := .fulfilled }]
              onRejected := x.onRejected ++ [{ promise := p, call := c, type := .rejected }] }) ∘
                (fun x => { x with handled := true })) []
              (.inr (.inr (.inl ⟨hst, rfl, rfl⟩)))).addPromise
            simpa [St.note, St.modify, modify_append_fresh hx] using this
          · have := htr [] (fun _ => rfl) rfl rfl rfl rfl
            simpa [St.note, St.modify] using this
    | fulfilled =>
      obtain ⟨v, hv, _⟩ := (h.1.1 p x hx).sett (by rw [hst]; decide)
      simp only [hv]
      rcases fl with _ | _ | k
      · refine ⟨[.job { promise := p, call := c, type := .fulfilled } v], rfl,
          by simp [trigger, St.note], ?_, ?_⟩
        · have := (then_sinv h c hx es hes (fun x => { x with handled := true }) _
            (.inr (.inr (.inr ⟨by rw [hst]; decide, rfl, v, hv, rfl⟩)))).addPromise
          rw [hst] at this
          simpa [trigger, St.note] using this
        · have := htr [.job { promise := p, call := c, type := .fulfilled } v] (fun _ => rfl) rfl
            rfl rfl rfl
          simpa [trigger, St.note] using this
      · refine ⟨[.oom], rfl, by simp [trigger, St.note], ?_, ?_⟩
        · have := (then_sinv h c hx es hes (fun x => { x with handled := true }) [.oom]
            (.inl ⟨rfl, rfl⟩)).addPromise
          simpa [trigger, St.note] using this
        · have := htr [.oom] (fun _ => rfl) rfl rfl rfl rfl
          simpa [trigger, St.note] using this
      · refine ⟨[.job { promise := p, call := c, type := .fulfilled } v], rfl,
          by simp [trigger, St.note], ?_, ?_⟩
        · have := (then_sinv h c hx es hes (fun x => { x with handled := true }) _
            (.inr (.inr (.inr ⟨by rw [hst]; decide, rfl, v, hv, rfl⟩)))).addPromise
          rw [hst] at this
          simpa [trigger, St.note] using this
        · have := htr [.job { promise := p, call := c, type := .fulfilled } v] (fun _ => rfl) rfl
            rfl rfl rfl
          simpa [trigger, St.note] using this
    | rejected =>
      obtain ⟨v, hv, _⟩ := (h.1.1 p x hx).sett (by rw [hst]; decide)
      simp only [hv]
      rcases fl with _ | _ | k
      · refine ⟨[.job { promise := p, call := c, type := .rejected } v], rfl,
          by simp [trigger, St.note], ?_, ?_⟩
        · have := (then_sinv h c hx es hes (fun x => { x with handled := true }) _
            (.inr (.inr (.inr ⟨by rw [hst]; decide, rfl, v, hv, rfl⟩)))).addPromise
          rw [hst] at this
          simpa [trigger, St.note] using this
        · have := htr [.job { promise := p, call := c, type := .rejected } v] (fun _ => rfl) rfl
            rfl rfl rfl
          simpa [trigger, St.note] using this
      · refine ⟨[.oom], rfl, by simp [trigger, St.note], ?_, ?_⟩
        · have := (then_sinv h c hx es hes (fun x => { x with handled := true }) [.oom]
            (.inl ⟨rfl, rfl⟩)).addPromise
          simpa [trigger, St.note] using this
        · have := htr [.oom] (fun _ => rfl) rfl rfl rfl rfl
          simpa [trigger, St.note] using this
      · refine ⟨[.job { promise := p, call := c, type := .rejected } v], rfl,
          by simp [trigger, St.note], ?_, ?_⟩
        · have := (then_sinv h c hx es hes (fun x => { x with handled := true }) _
            (.inr (.inr (.inr ⟨by rw [hst]; decide, rfl, v, hv, rfl⟩)))).addPromise
          rw [hst] at this
          simpa [trigger, St.note] using this
        · have := htr [.job { promise := p, call := c, type := .rejected } v] (fun _ => rfl) rfl
            rfl rfl rfl
          simpa [trigger, St.note] using this
  unfold St.performThen
  simp only [hx]
  rcases fail with _ | _ | _ | k
  · obtain ⟨fs, g1, g2, g3⟩ := hreg none
    exact ⟨es, fs, h2, g1, g2, g3⟩
  · refine ⟨es, [.oom], h2, rfl, ?_, ?_, ?_⟩
    · simp only [h1]; simp [St.note]
    · have := then_sinv h c hx es hes (fun x => { x with handled := true }) [.oom] (.inl ⟨rfl, rfl⟩)
      simp only [h1]; simpa [St.note] using this
    · have := htr [.oom] (fun _ => rfl) rfl rfl rfl rfl
      simp only [h1]; simpa [St.note] using this
  · refine ⟨es, [.oom], h2, rfl, ?_, ?_, ?_⟩
    · simp only [h1]; simp [St.note, St.addPromise]
    · have := (then_sinv h c hx es hes (fun x => { x with handled := true }) [.oom]
        (.inl ⟨rfl, rfl⟩)).addPromise
      simp only [h1]; simpa [St.note, St.addPromise] using this
    · have := htr [.oom] (fun _ => rfl) rfl rfl rfl rfl
      simp only [h1]; simpa [St.note, St.addPromise] using this
  · obtain ⟨fs, g1, g2, g3⟩ := hreg (some k)
    exact ⟨es, fs, h2, g1, g2, g3⟩

theorem useResolver_inv {s s' : St V} (h : Inv s) {r p : Nat} (hr : s.useResolver r = some (p, s')) :
    Inv s' := by
  unfold St.useResolver at hr
  split at hr
  · cases hr
  · split at hr
    · cases hr
    · cases hr; exact h

/-- Every operation keeps the invariant. -/
theorem Inv.step {s : St V} (h : Inv s) (op : Op V) : Inv (step s op) := by
  cases op with
  | create oom =>
    simp only [Promises.step, St.create]
    cases oom with
    | true => exact h.oom
    | false => exact h.addPromise
  | reject r v fail t =>
    simp only [Promises.step]
    cases hr : s.useResolver r with
    | none => exact h
    | some q => exact (useResolver_inv h hr).reject q.1 v fail t
  | resolveValue r v fail =>
    simp only [Promises.step]
    cases hr : s.useResolver r with
    | none => exact h
    | some q => exact (useResolver_inv h hr).fulfill q.1 v fail
  | resolveSelf r e o fail t =>
    simp only [Promises.step]
    cases hr : s.useResolver r with
    | none => exact h
    | some q =>
      simp only [St.rejectSelf]
      cases o with
      | true => exact (useResolver_inv h hr).oom
      | false => exact (useResolver_inv h hr).reject q.1 e fail t
  | resolveObject r v =>
    simp only [Promises.step]
    cases hr : s.useResolver r with
    | none => exact h
    | some q => exact (useResolver_inv (s' := q.2) (p := q.1) h hr : Inv q.2)
  | getterThrows i e fail t =>
    simp only [Promises.step]
    cases hi : s.inflight[i]? with
    | none => exact h
    | some q =>
      exact Inv.reject (s := { s with inflight := s.inflight.eraseIdx i }) h q.1 e fail t
  | notThenable i fail =>
    simp only [Promises.step]
    cases hi : s.inflight[i]? with
    | none => exact h
    | some q =>
      exact Inv.fulfill (s := { s with inflight := s.inflight.eraseIdx i }) h q.1 q.2 fail
  | thenable i oom =>
    simp only [Promises.step]
    cases hi : s.inflight[i]? with
    | none => exact h
    | some q =>
      simp only [St.scheduleThenable]
      cases oom with
      | true => exact h.oom
      | false =>
        exact ⟨h.1.neutral (fun _ => rfl) (fun _ => rfl) rfl,
          h.2.neutral (fun _ => rfl) rfl rfl rfl rfl⟩
  | getterAborts i =>
    simp only [Promises.step]
    cases hi : s.inflight[i]? with
    | none => exact h
    | some q => exact h
  | «then» p call fail =>
    simp only [Promises.step]
    cases hx : s.promises[p]? with
    | none =>
      have : s.performThen p call fail = s := by simp only [St.performThen, hx]
      rw [this]; exact h
    | some x =>
      obtain ⟨_, _, _, _, _, hi⟩ := performThen_eq h call hx fail
      exact hi
  | drain oom => exact h.drain oom
  | dispatched p =>
    simp only [Promises.step]
    by_cases hb : p ∈ s.batch
    · rw [if_pos hb]
      cases hx : s.promises[p]? with
      | none => exact h
      | some x => exact h.dispatched hb hx
    · rw [if_neg hb]; exact h

theorem Reachable.inv {s : St V} (h : Reachable s) : Inv s := by
  induction h with
  | init => exact inv_init
  | step _ ih => exact ih.step _

theorem Reachable.run {s : St V} (h : Reachable s) (ops : List (Op V)) : Reachable (run s ops) := by
  induction ops generalizing s with
  | nil => exact h
  | cons op ops ih => exact ih h.step

end Verif.Promises
