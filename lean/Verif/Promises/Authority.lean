import Verif.Promises.Lemmas
/-!
# Who may settle a promise

At any moment at most one party (an unused pair of resolving functions or a resolution whose `then`
getter is running) may settle a promise, and only if the promise is pending.
-/

namespace Verif.Promises

variable {V : Type}

/-- The promise `q` exists in both states with the same state and result. -/
def Same (s s' : St V) (q : Nat) : Prop :=
  ∀ x, s.promises[q]? = some x →
    ∃ y, s'.promises[q]? = some y ∧ y.state = x.state ∧ y.result = x.result

theorem Same.refl (s : St V) (q : Nat) : Same s s q := fun x hx => ⟨x, hx, rfl, rfl⟩

theorem Same.trans {a b c : St V} {q : Nat} (h1 : Same a b q) (h2 : Same b c q) : Same a c q := by
  intro x hx
  obtain ⟨y, hy, e1, e2⟩ := h1 x hx
  obtain ⟨z, hz, e3, e4⟩ := h2 y hy
  exact ⟨z, hz, e3.trans e1, e4.trans e2⟩

theorem Same.of_eq {s s' : St V} (h : s'.promises = s.promises) (q : Nat) : Same s s' q :=
  fun x hx => ⟨x, by rw [h]; exact hx, rfl, rfl⟩

theorem Same.modify (s : St V) (p q : Nat) (f : Slot V → Slot V)
    (hf : q = p → ∀ x, (f x).state = x.state ∧ (f x).result = x.result) :
    Same s (s.modify p f) q := by
  intro x hx
  by_cases h : p = q
  · subst h
    exact ⟨f x, by simp only [St.modify, gm_eq, hx, Option.map_some], hf rfl x⟩
  · exact ⟨x, by simp only [St.modify, gm_ne _ _ h, hx], rfl, rfl⟩

theorem Same.addPromise (s : St V) (q : Nat) : Same s s.addPromise q := by
  intro x hx
  have hl : q < s.promises.length := by
    rcases Nat.lt_or_ge q s.promises.length with h | h
    · exact h
    · rw [List.getElem?_eq_none h] at hx; cases hx
  exact ⟨x, by simp only [St.addPromise, List.getElem?_append_left hl, hx], rfl, rfl⟩

theorem trigger_fields (v : V) (rs : List Reaction) (fail : Option Nat) (s : St V) :
    (trigger v rs fail s).promises = s.promises ∧ (trigger v rs fail s).resolvers = s.resolvers ∧
      (trigger v rs fail s).inflight = s.inflight := by
  obtain ⟨_, _, _, _, h⟩ := trigger_eq v rs fail s
  rw [h]
  exact ⟨rfl, rfl, rfl⟩

theorem onHandle_fields (s : St V) (p : Nat) :
    (s.onHandle p).promises = s.promises ∧ (s.onHandle p).resolvers = s.resolvers ∧
      (s.onHandle p).inflight = s.inflight := by
  unfold St.onHandle
  split
  · exact ⟨rfl, rfl, rfl⟩
  · split
    · exact ⟨rfl, rfl, rfl⟩
    · exact ⟨rfl, rfl, rfl⟩

theorem track_fields (s : St V) (p : Nat) (h o : Bool) :
    (s.track p h o).promises = s.promises ∧ (s.track p h o).resolvers = s.resolvers ∧
      (s.track p h o).inflight = s.inflight := by
  unfold St.track St.onReject
  split
  · exact ⟨rfl, rfl, rfl⟩
  · split
    · exact ⟨rfl, rfl, rfl⟩
    · exact ⟨rfl, rfl, rfl⟩

theorem fulfill_fields (s : St V) (p : Nat) (v : V) (fail : Option Nat) :
    (s.fulfill p v fail).resolvers = s.resolvers ∧ (s.fulfill p v fail).inflight = s.inflight ∧
      ∀ q, q ≠ p ∨ ¬ Pending s p → Same s (s.fulfill p v fail) q := by
  unfold St.fulfill
  cases hx : s.promises[p]? with
  | none => exact ⟨rfl, rfl, fun q _ => Same.refl s q⟩
  | some x =>
    simp only
    by_cases hp : x.state = .pending
    · rw [if_pos hp]
      obtain ⟨h1, h2, h3⟩ := trigger_fields v x.onFulfilled fail
        (s.modify p (fun x => x.settle .fulfilled v))
      refine ⟨h2, h3, fun q hq => ?_⟩
      have hqp : q ≠ p := hq.elim id (fun h => absurd ⟨x, hx, hp⟩ h)
      exact (Same.modify s p q (fun x => x.settle .fulfilled v) (fun e => absurd e hqp)).trans
        (Same.of_eq h1 q)
    · rw [if_neg hp]; exact ⟨rfl, rfl, fun q _ => Same.refl s q⟩

theorem reject_fields (s : St V) (p : Nat) (v : V) (fail : Option Nat) (t : Bool) :
    (s.reject p v fail t).resolvers = s.resolvers ∧ (s.reject p v fail t).inflight = s.inflight ∧
      ∀ q, q ≠ p ∨ ¬ Pending s p → Same s (s.reject p v fail t) q := by
  unfold St.reject
  cases hx : s.promises[p]? with
  | none => exact ⟨rfl, rfl, fun q _ => Same.refl s q⟩
  | some x =>
    simp only
    by_cases hp : x.state = .pending
    · rw [if_pos hp]
      obtain ⟨h1, h2, h3⟩ := trigger_fields v x.onRejected fail
        (((s.modify p (fun x => x.settle .rejected v)).note (.rejected p)).track p x.handled t)
      obtain ⟨k1, k2, k3⟩ := track_fields
        ((s.modify p (fun x => x.settle .rejected v)).note (.rejected p)) p x.handled t
      refine ⟨h2.trans k2, h3.trans k3, fun q hq => ?_⟩
      have hqp : q ≠ p := hq.elim id (fun h => absurd ⟨x, hx, hp⟩ h)
      exact (Same.modify s p q (fun x => x.settle .rejected v) (fun e => absurd e hqp)).trans
        (Same.of_eq (h1.trans k1) q)
    · rw [if_neg hp]; exact ⟨rfl, rfl, fun q _ => Same.refl s q⟩

theorem markHandled_fields (s : St V) (p : Nat) (x : Slot V) :
    (s.markHandled p x).resolvers = s.resolvers ∧ (s.markHandled p x).inflight = s.inflight ∧
      (s.markHandled p x).promises.length = s.promises.length ∧
      ∀ q, Same s (s.markHandled p x) q := by
  unfold St.markHandled
  by_cases hc : x.state = .rejected ∧ x.handled = false
  · rw [if_pos hc]
    obtain ⟨h1, h2, h3⟩ := onHandle_fields s p
    refine ⟨h2, h3, by simp only [St.modify, List.length_modify, h1], fun q => ?_⟩
    exact (Same.of_eq h1 q).trans (Same.modify _ p q _ (fun _ _ => ⟨rfl, rfl⟩))
  · rw [if_neg hc]
    exact ⟨rfl, rfl, by simp only [St.modify, List.length_modify],
      fun q => Same.modify _ p q _ (fun _ _ => ⟨rfl, rfl⟩)⟩

theorem register_fields (s : St V) (p c : Nat) (fail : Option Nat) :
    (s.register p c fail).resolvers = s.resolvers ∧ (s.register p c fail).inflight = s.inflight ∧
      ∀ q, Same s (s.register p c fail) q := by
  unfold St.register
  cases hx : s.promises[p]? with
  | none => exact ⟨rfl, rfl, fun q => Same.refl s q⟩
  | some x =>
    simp only
    cases x.state with
    | pending =>
      simp only
      split
      · exact ⟨rfl, rfl, fun q => Same.refl s q⟩
      · split
        · refine ⟨rfl, rfl, fun q => ?_⟩
          have hm := Same.modify s p q (fun x => { x with
            onFulfilled := x.onFulfilled ++ [{ promise := p, call := c, type := .fulfilled }] })
            (fun _ _ => ⟨rfl, rfl⟩)
          exact hm.trans (Same.of_eq rfl q)
        · exact ⟨rfl, rfl, fun q => Same.modify s p q _ (fun _ _ => ⟨rfl, rfl⟩)⟩
    | fulfilled =>
      simp only
      cases x.result with
      | none => exact ⟨rfl, rfl, fun q => Same.refl s q⟩
      | some v =>
        obtain ⟨h1, h2, h3⟩ := trigger_fields v [⟨p, c, .fulfilled⟩] fail s
        exact ⟨h2, h3, fun q => Same.of_eq h1 q⟩
    | rejected =>
      simp only
      cases x.result with
      | none => exact ⟨rfl, rfl, fun q => Same.refl s q⟩
      | some v =>
        obtain ⟨h1, h2, h3⟩ := trigger_fields v [⟨p, c, .rejected⟩] fail s
        exact ⟨h2, h3, fun q => Same.of_eq h1 q⟩

theorem addPromise_pending (s : St V) (n : Nat) (hn : n = s.promises.length) :
    Pending s.addPromise n :=
  ⟨.fresh, by subst hn; simp [St.addPromise], rfl⟩

theorem Same.pending {s s' : St V} {q : Nat} (h : Same s s' q) (hp : Pending s q) :
    Pending s' q := by
  obtain ⟨x, hx, hs⟩ := hp
  obtain ⟨y, hy, e, _⟩ := h x hx
  exact ⟨y, hy, e.trans hs⟩

theorem performThen_fields (s : St V) (p c : Nat) (fail : Option Nat) :
    (s.performThen p c fail).inflight = s.inflight ∧ (∀ q, Same s (s.performThen p c fail) q) ∧
      ((s.performThen p c fail).resolvers = s.resolvers ∨
        (s.performThen p c fail).resolvers =
          s.resolvers ++ [{ promise := s.promises.length, already := false }] ∧
        Pending (s.performThen p c fail) s.promises.length) := by
  unfold St.performThen
  cases hx : s.promises[p]? with
  | none => exact ⟨rfl, fun q => Same.refl s q, .inl rfl⟩
  | some x =>
    simp only
    obtain ⟨h1, h2, hlen, h3⟩ := markHandled_fields (s.note (.thenCalled p c)) p x
    have h3' : ∀ q, Same s ((s.note (.thenCalled p c)).markHandled p x) q := fun q =>
      (Same.of_eq (s := s) (s' := s.note (.thenCalled p c)) rfl q).trans (h3 q)
    have hreg : ∀ fl, let t := (((s.note (.thenCalled p c)).markHandled p x).addPromise.addResolver
          s.promises.length).register p c fl
        t.inflight = s.inflight ∧ (∀ q, Same s t q) ∧ (t.resolvers = s.resolvers ∨ t.resolvers =
          s.resolvers ++ [{ promise := s.promises.length, already := false }] ∧
          Pending t s.promises.length) := by
      intro fl t
      obtain ⟨k1, k2, k3⟩ := register_fields
        (((s.note (.thenCalled p c)).markHandled p x).addPromise.addResolver s.promises.length) p c fl
      have hs : ∀ q, Same ((s.note (.thenCalled p c)).markHandled p x).addPromise t q := fun q =>
        (Same.of_eq rfl q).trans (k3 q)
      refine ⟨k2.trans h2, fun q => ((h3' q).trans (Same.addPromise _ q)).trans (hs q), .inr ⟨?_, ?_⟩⟩
      · rw [k1]
        simp only [St.addResolver, St.addPromise, h1]
        rfl
      · exact (hs _).pending (addPromise_pending _ _ hlen.symm)
    rcases fail with _ | _ | _ | k
    · exact hreg none
    · exact ⟨h2, fun q => (h3' q).trans (Same.of_eq rfl q), .inl h1⟩
    · exact ⟨h2, fun q => ((h3' q).trans (Same.addPromise _ q)).trans (Same.of_eq rfl q), .inl h1⟩
    · exact hreg (some k)

/-- No operation changes the state or result of a settled promise. -/
theorem step_keeps (s : St V) (op : Op V) {q : Nat} (hq : ¬ Pending s q) : Same s (step s op) q := by
  have use : ∀ r q' s', s.useResolver r = some (q', s') → s'.promises = s.promises := by
    intro r q' s' h
    unfold St.useResolver at h
    split at h
    · cases h
    · split at h
      · cases h
      · cases h; rfl
  have rej : ∀ (t : St V) (ht : t.promises = s.promises) (p : Nat) (v : V) fail tr,
      Same s (t.reject p v fail tr) q := by
    intro t ht p v fail tr
    refine (Same.of_eq ht q).trans ((reject_fields t p v fail tr).2.2 q ?_)
    by_cases hqp : q = p
    · right; subst hqp; rintro ⟨x, hx, hs⟩; exact hq ⟨x, by rw [← ht]; exact hx, hs⟩
    · exact .inl hqp
  have ful : ∀ (t : St V) (ht : t.promises = s.promises) (p : Nat) (v : V) fail,
      Same s (t.fulfill p v fail) q := by
    intro t ht p v fail
    refine (Same.of_eq ht q).trans ((fulfill_fields t p v fail).2.2 q ?_)
    by_cases hqp : q = p
    · right; subst hqp; rintro ⟨x, hx, hs⟩; exact hq ⟨x, by rw [← ht]; exact hx, hs⟩
    · exact .inl hqp
  cases op with
  | create oom =>
    simp only [step, St.create]
    cases oom with
    | true => exact Same.of_eq rfl q
    | false => exact (Same.addPromise s q).trans (Same.of_eq rfl q)
  | reject r v fail t =>
    simp only [step]
    cases hr : s.useResolver r with
    | none => exact Same.refl s q
    | some u => exact rej u.2 (use r u.1 u.2 hr) u.1 v fail t
  | resolveValue r v fail =>
    simp only [step]
    cases hr : s.useResolver r with
    | none => exact Same.refl s q
    | some u => exact ful u.2 (use r u.1 u.2 hr) u.1 v fail
  | resolveSelf r e o fail t =>
    simp only [step]
    cases hr : s.useResolver r with
    | none => exact Same.refl s q
    | some u =>
      simp only [St.rejectSelf]
      cases o with
      | true => exact Same.of_eq (use r u.1 u.2 hr) q
      | false => exact rej u.2 (use r u.1 u.2 hr) u.1 e fail t
  | resolveObject r v =>
    simp only [step]
    cases hr : s.useResolver r with
    | none => exact Same.refl s q
    | some u => exact Same.of_eq (use r u.1 u.2 hr) q
  | getterThrows i e fail t =>
    simp only [step]
    cases hi : s.inflight[i]? with
    | none => exact Same.refl s q
    | some u => exact rej { s with inflight := s.inflight.eraseIdx i } rfl u.1 e fail t
  | notThenable i fail =>
    simp only [step]
    cases hi : s.inflight[i]? with
    | none => exact Same.refl s q
    | some u => exact ful { s with inflight := s.inflight.eraseIdx i } rfl u.1 u.2 fail
  | thenable i oom =>
    simp only [step]
    cases hi : s.inflight[i]? with
    | none => exact Same.refl s q
    | some u =>
      simp only [St.scheduleThenable]
      cases oom with
      | true => exact Same.of_eq rfl q
      | false => exact Same.of_eq rfl q
  | getterAborts i =>
    simp only [step]
    cases hi : s.inflight[i]? with
    | none => exact Same.refl s q
    | some u => exact Same.of_eq rfl q
  | «then» p call fail => exact (performThen_fields s p call fail).2.1 q
  | drain oom =>
    simp only [step, St.drain]
    cases oom with
    | true => exact Same.of_eq rfl q
    | false => exact Same.of_eq rfl q
  | dispatched p =>
    simp only [step]
    split
    · cases hx : s.promises[p]? with
      | none => exact Same.refl s q
      | some x =>
        simp only [St.afterDispatch]
        cases x.handled with
        | true => exact Same.of_eq rfl q
        | false => exact Same.of_eq rfl q
    · exact Same.refl s q

theorem Settled.not_pending {s : St V} {p : Nat} {st : PState} {v : V} (h : Settled s p st v) :
    ¬ Pending s p := by
  obtain ⟨h1, x, hx, h2, _⟩ := h
  rintro ⟨y, hy, h3⟩
  rw [hx] at hy
  cases hy
  exact h1 (h2.symm.trans h3)

theorem Settled.step {s : St V} {p : Nat} {st : PState} {v : V} (h : Settled s p st v) (op : Op V) :
    Settled (step s op) p st v := by
  obtain ⟨x, hx, h2, h3⟩ := h.2
  obtain ⟨y, hy, e1, e2⟩ := step_keeps s op h.not_pending x hx
  exact ⟨h.1, y, hy, e1.trans h2, e2.trans h3⟩

/-! ## Authority -/

/-- How many parties may settle `p`. -/
def auth (rs : List Resolver) (fl : List (Nat × V)) (p : Nat) : Nat :=
  rs.countP (fun r => r.promise = p ∧ r.already = false) + fl.countP (fun x => x.1 = p)

/-- At most one party, and only for pending promises. -/
def AInv (s : St V) : Prop :=
  ∀ p, auth s.resolvers s.inflight p ≤ 1 ∧ (0 < auth s.resolvers s.inflight p → Pending s p)

theorem countP_set (rs : List Resolver) (r : Nat) (x : Resolver) (hx : rs[r]? = some x)
    (ha : x.already = false) (p : Nat) :
    (rs.set r { x with already := true }).countP (fun r => r.promise = p ∧ r.already = false) +
      (if x.promise = p then 1 else 0) =
    rs.countP (fun r => r.promise = p ∧ r.already = false) := by
  induction rs generalizing r with
  | nil => simp at hx
  | cons y rs ih =>
    cases r with
    | zero =>
      simp only [List.getElem?_cons_zero, Option.some.injEq] at hx
      subst hx
      rw [List.set_cons_zero, List.countP_cons, List.countP_cons]
      by_cases h : y.promise = p <;> simp [h, ha]
    | succ r =>
      rw [List.getElem?_cons_succ] at hx
      rw [List.set_cons_succ, List.countP_cons, List.countP_cons, ← ih r hx]
      omega

theorem countP_eraseIdx (fl : List (Nat × V)) (i : Nat) (x : Nat × V) (hx : fl[i]? = some x)
    (p : Nat) :
    (fl.eraseIdx i).countP (fun x => x.1 = p) + (if x.1 = p then 1 else 0) =
      fl.countP (fun x => x.1 = p) := by
  induction fl generalizing i with
  | nil => simp at hx
  | cons y fl ih =>
    cases i with
    | zero =>
      simp only [List.getElem?_cons_zero, Option.some.injEq] at hx
      subst hx
      rw [List.eraseIdx_cons_zero, List.countP_cons]
      by_cases h : y.1 = p <;> simp [h]
    | succ i =>
      rw [List.getElem?_cons_succ] at hx
      rw [List.eraseIdx_cons_succ, List.countP_cons, List.countP_cons, ← ih i hx]
      omega

/-- Using a pair takes its authority. -/
theorem useResolver_auth {s s' : St V} {r p : Nat} (h : s.useResolver r = some (p, s')) :
    s'.promises = s.promises ∧ s'.inflight = s.inflight ∧
      ∀ q, auth s'.resolvers s'.inflight q + (if p = q then 1 else 0) =
        auth s.resolvers s.inflight q := by
  unfold St.useResolver at h
  cases hx : s.resolvers[r]? with
  | none => rw [hx] at h; cases h
  | some x =>
    rw [hx] at h
    simp only at h
    cases ha : x.already with
    | true => simp [ha] at h
    | false =>
      simp only [ha, Bool.false_eq_true, if_false, Option.some.injEq, Prod.mk.injEq] at h
      obtain ⟨rfl, rfl⟩ := h
      refine ⟨rfl, rfl, fun q => ?_⟩
      have := countP_set s.resolvers r x hx ha q
      simp only [auth, ← this]
      omega

/-- After taking the authority over `p`, anything may be done to `p`. -/
theorem AInv.take {s s' : St V} (h : AInv s) {p : Nat}
    (ha : ∀ q, auth s'.resolvers s'.inflight q + (if p = q then 1 else 0) =
      auth s.resolvers s.inflight q)
    (hs : ∀ q, q ≠ p → Same s s' q) : AInv s' := by
  intro q
  have h1 := ha q
  obtain ⟨h2, h3⟩ := h q
  refine ⟨by omega, fun hq => ?_⟩
  have hqp : q ≠ p := by
    rintro rfl
    simp only [if_true] at h1
    omega
  exact (hs q hqp).pending (h3 (by omega))

/-- Nothing changes for authority. -/
theorem AInv.same {s s' : St V} (h : AInv s) (hr : s'.resolvers = s.resolvers)
    (hf : s'.inflight = s.inflight) (hs : ∀ q, Same s s' q) : AInv s' := by
  intro q
  rw [hr, hf]
  exact ⟨(h q).1, fun hq => (hs q).pending ((h q).2 hq)⟩

theorem auth_addResolver (rs : List Resolver) (fl : List (Nat × V)) (n q : Nat) :
    auth (rs ++ [{ promise := n, already := false }]) fl q =
      auth rs fl q + if n = q then 1 else 0 := by
  simp only [auth, List.countP_append, List.countP_cons, List.countP_nil]
  by_cases h : n = q <;> simp [h] <;> omega

theorem auth_inflight (rs : List Resolver) (fl : List (Nat × V)) (n : Nat) (v : V) (q : Nat) :
    auth rs (fl ++ [(n, v)]) q = auth rs fl q + if n = q then 1 else 0 := by
  simp only [auth, List.countP_append, List.countP_cons, List.countP_nil]
  by_cases h : n = q <;> simp [h] <;> omega

theorem AInv.noneFresh {s : St V} (h : AInv s) : auth s.resolvers s.inflight s.promises.length = 0 := by
  rcases Nat.eq_zero_or_pos (auth s.resolvers s.inflight s.promises.length) with h0 | h0
  · exact h0
  · obtain ⟨x, hx, _⟩ := (h _).2 h0
    simp at hx

theorem AInv.grow {s s' : St V} (h : AInv s)
    (hr : s'.resolvers = s.resolvers ++ [{ promise := s.promises.length, already := false }])
    (hf : s'.inflight = s.inflight) (hs : ∀ q, Same s s' q) (hp : Pending s' s.promises.length) :
    AInv s' := by
  intro q
  rw [hr, hf, auth_addResolver]
  by_cases hq : s.promises.length = q
  · subst hq
    have := h.noneFresh
    simp only [if_true]
    exact ⟨by omega, fun _ => hp⟩
  · simp only [hq, if_false, Nat.add_zero]
    exact ⟨(h q).1, fun h' => (hs q).pending ((h q).2 h')⟩

theorem AInv.step {s : St V} (h : AInv s) (op : Op V) : AInv (step s op) := by
  have rej : ∀ (p : Nat) (t : St V) (ht : t.promises = s.promises)
      (ha : ∀ q, auth t.resolvers t.inflight q + (if p = q then 1 else 0) =
        auth s.resolvers s.inflight q) (v : V) fail tr, AInv (t.reject p v fail tr) := by
    intro p t ht ha v fail tr
    obtain ⟨h1, h2, h3⟩ := reject_fields t p v fail tr
    refine h.take (p := p) (by rw [h1, h2]; exact ha) (fun q hq => ?_)
    exact (Same.of_eq ht q).trans (h3 q (.inl hq))
  have ful : ∀ (p : Nat) (t : St V) (ht : t.promises = s.promises)
      (ha : ∀ q, auth t.resolvers t.inflight q + (if p = q then 1 else 0) =
        auth s.resolvers s.inflight q) (v : V) fail, AInv (t.fulfill p v fail) := by
    intro p t ht ha v fail
    obtain ⟨h1, h2, h3⟩ := fulfill_fields t p v fail
    refine h.take (p := p) (by rw [h1, h2]; exact ha) (fun q hq => ?_)
    exact (Same.of_eq ht q).trans (h3 q (.inl hq))
  have infl : ∀ i u, s.inflight[i]? = some u → ∀ q,
      auth s.resolvers (s.inflight.eraseIdx i) q + (if u.1 = q then 1 else 0) =
        auth s.resolvers s.inflight q := by
    intro i u hu q
    have := countP_eraseIdx s.inflight i u hu q
    simp only [auth, ← this]
    omega
  cases op with
  | create oom =>
    simp only [Promises.step, St.create]
    cases oom with
    | true => exact h.same rfl rfl (fun q => Same.of_eq rfl q)
    | false =>
      refine h.grow (s' := s.addPromise.addResolver s.promises.length) rfl rfl
        (fun q => (Same.addPromise s q).trans (Same.of_eq rfl q)) ?_
      exact addPromise_pending s _ rfl
  | reject r v fail t =>
    simp only [Promises.step]
    cases hr : s.useResolver r with
    | none => exact h
    | some u =>
      obtain ⟨h1, _, h3⟩ := useResolver_auth (p := u.1) (s' := u.2) hr
      exact rej u.1 u.2 h1 h3 v fail t
  | resolveValue r v fail =>
    simp only [Promises.step]
    cases hr : s.useResolver r with
    | none => exact h
    | some u =>
      obtain ⟨h1, _, h3⟩ := useResolver_auth (p := u.1) (s' := u.2) hr
      exact ful u.1 u.2 h1 h3 v fail
  | resolveSelf r e o fail t =>
    simp only [Promises.step]
    cases hr : s.useResolver r with
    | none => exact h
    | some u =>
      obtain ⟨h1, _, h3⟩ := useResolver_auth (p := u.1) (s' := u.2) hr
      simp only [St.rejectSelf]
      cases o with
      | true => exact h.take (s' := u.2.note .oom) h3 (fun q _ => Same.of_eq h1 q)
      | false => exact rej u.1 u.2 h1 h3 e fail t
  | resolveObject r v =>
    simp only [Promises.step]
    cases hr : s.useResolver r with
    | none => exact h
    | some u =>
      obtain ⟨h1, _, h3⟩ := useResolver_auth (p := u.1) (s' := u.2) hr
      intro q
      simp only [auth_inflight, h3 q]
      exact ⟨(h q).1, fun hq => (Same.of_eq (s := s) h1 q).pending ((h q).2 hq)⟩
  | getterThrows i e fail t =>
    simp only [Promises.step]
    cases hi : s.inflight[i]? with
    | none => exact h
    | some u => exact rej u.1 { s with inflight := s.inflight.eraseIdx i } rfl (infl i u hi) e fail t
  | notThenable i fail =>
    simp only [Promises.step]
    cases hi : s.inflight[i]? with
    | none => exact h
    | some u => exact ful u.1 { s with inflight := s.inflight.eraseIdx i } rfl (infl i u hi) u.2 fail
  | thenable i oom =>
    simp only [Promises.step]
    cases hi : s.inflight[i]? with
    | none => exact h
    | some u =>
      simp only [St.scheduleThenable]
      cases oom with
      | true =>
        exact h.take (s' := ({ s with inflight := s.inflight.eraseIdx i } : St V).note .oom)
          (infl i u hi) (fun q _ => Same.of_eq rfl q)
      | false =>
        intro q
        have := infl i u hi q
        simp only [Bool.false_eq_true, if_false, St.addResolver, St.note, auth_addResolver, this]
        exact ⟨(h q).1, fun hq => (Same.of_eq (s := s) rfl q).pending ((h q).2 hq)⟩
  | getterAborts i =>
    simp only [Promises.step]
    cases hi : s.inflight[i]? with
    | none => exact h
    | some u =>
      exact h.take (s' := { s with inflight := s.inflight.eraseIdx i }) (infl i u hi)
        (fun q _ => Same.of_eq rfl q)
  | «then» p call fail =>
    obtain ⟨h1, h2, h3⟩ := performThen_fields s p call fail
    rcases h3 with h3 | ⟨h3, h4⟩
    · exact h.same h3 h1 h2
    · exact h.grow h3 h1 h2 h4
  | drain oom =>
    simp only [Promises.step, St.drain]
    cases oom with
    | true => exact h.same rfl rfl (fun q => Same.of_eq rfl q)
    | false => exact h.same rfl rfl (fun q => Same.of_eq rfl q)
  | dispatched p =>
    simp only [Promises.step]
    split
    · cases hx : s.promises[p]? with
      | none => exact h
      | some x =>
        simp only [St.afterDispatch]
        cases x.handled with
        | true => exact h.same rfl rfl (fun q => Same.of_eq rfl q)
        | false => exact h.same rfl rfl (fun q => Same.of_eq rfl q)
    · exact h

theorem Reachable.ainv {s : St V} (h : Reachable s) : AInv s := by
  induction h with
  | init => intro p; simp [St.init, auth]
  | step _ ih => exact ih.step _

end Verif.Promises
