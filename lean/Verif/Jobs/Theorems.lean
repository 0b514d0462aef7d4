import Verif.Jobs.Lemmas
/-!
# C15, C51: the microtask queue

All theorems range over all job types, worlds, job bodies (arbitrary re-entrant programs) and queues.
-/

namespace Verif.Jobs

variable {W J E : Type}

/-- A checkpoint that returns has run the queue to exhaustion, oldest job first, each job from
beginning to end with its own effects on the world, jobs queued on the way going to the back; it
returns the jobs' errors in order and leaves the queue empty and ready for the next checkpoint. -/
theorem C15_checkpoint (body : J → Prog W J E) (fuel : Nat) (s s' : State W J E) (errs : List E)
    (hs : s.performing = false) (h : perform body fuel s = some (errs, s')) :
    s'.queue = [] ∧ s'.performing = false ∧
    ∃ tr, s'.trace = s.trace ++ tr ∧ Drains body s.world s.queue tr errs s'.world := by
  unfold perform guarded at h
  rw [hs] at h
  simp only [Bool.false_eq_true, if_false] at h
  cases hd : drain body fuel [] { s with performing := true } with
  | none => rw [hd] at h; cases h
  | some p =>
    obtain ⟨es, s1⟩ := p
    rw [hd] at h
    cases h
    obtain ⟨tr, es2, hdr, rfl, hq, _, ht⟩ := drain_sound body fuel [] _ _ _ rfl hd
    exact ⟨hq, rfl, tr, ht, by simpa using hdr⟩

/-- The same in terms of what an observer sees: every job queued before or during the checkpoint is
started exactly once, in the order queued; at every moment the jobs started are the oldest ones queued;
jobs do not overlap; a nested checkpoint returns nothing; every error is reported, in order, and stops
nothing. -/
theorem C15_fifo (body : J → Prog W J E) (fuel : Nat) (s s' : State W J E) (errs : List E)
    (hs : s.performing = false) (h : perform body fuel s = some (errs, s')) :
    ∃ tr, s'.trace = s.trace ++ tr ∧
      startedIn tr = s.queue ++ queuedIn tr ∧
      (∀ p, p <+: tr → startedIn p <+: s.queue ++ queuedIn p) ∧
      (∃ blocks : List (List (Event J E)), tr = blocks.flatten ∧ ∀ b ∈ blocks, IsBlock b) ∧
      failuresIn tr = errs := by
  obtain ⟨_, _, tr, ht, hd⟩ := C15_checkpoint body fuel s s' errs hs h
  exact ⟨tr, ht, hd.fifo.1, hd.causal, hd.blocks, hd.fifo.2⟩

/-- A checkpoint asked for while one is in progress does nothing. -/
theorem C15_nested (body : J → Prog W J E) (fuel : Nat) (s : State W J E)
    (hs : s.performing = true) : perform body fuel s = some ([], s) := by
  rw [perform, guarded, if_pos hs]

/-- The checkpoint returns whenever running the queue oldest-first comes to an end. -/
theorem C15_returns (body : J → Prog W J E) (s : State W J E) (hs : s.performing = false)
    (tr : List (Event J E)) (errs : List E) (w' : W) (hd : Drains body s.world s.queue tr errs w') :
    ∃ fuel s', perform body fuel s = some (errs, s') ∧ s'.world = w' ∧
      s'.trace = s.trace ++ tr := by
  obtain ⟨fuel, hf⟩ := drain_complete body hd
  refine ⟨fuel, { world := w', queue := [], performing := false, trace := s.trace ++ tr }, ?_, rfl,
    rfl⟩
  unfold perform guarded
  rw [hs]
  simp only [Bool.false_eq_true, if_false]
  have := hf [] s.trace
  rw [this]
  simp

/-- Even when jobs keep queueing jobs for ever, no job waits for ever: after `n` rounds of the loop
either everything queued has been started or the `n` oldest jobs have, in order. -/
theorem C15_fair (body : J → Prog W J E) (s : State W J E) (n : Nat) (hs : s.performing = true) :
    ∃ errs s' tr, rounds body n [] s = some (errs, s') ∧ s'.trace = s.trace ++ tr ∧
      startedIn tr ++ s'.queue = s.queue ++ queuedIn tr ∧ errs = failuresIn tr ∧
      ((startedIn tr).length = n ∨ s'.queue = []) := by
  obtain ⟨es', s', tr, h1, _, h3, h4, h5, h6⟩ := rounds_fifo body n [] s hs
  exact ⟨es', s', tr, h1, h3, h4, by simpa using h5, h6⟩

/-- After a teardown nothing runs. -/
theorem C15_teardown (body : J → Prog W J E) (fuel : Nat) (s : State W J E)
    (hs : s.performing = false) : perform body (fuel + 1) (teardown s) = some ([], teardown s) := by
  cases s
  simp only at hs
  subst hs
  simp [perform, guarded, drain, teardown]

/-- C52: the VM's own checkpoint does the same, and returns the first error, for jobs that make every call
with the host hooks they were given.  Missing for the full property: jobs whose code reads or writes
accessor properties through `call_without_host` (see `C52_vm_order_violated`). -/
theorem C52_vm_partial (body : J → VProg W J E) (hb : ∀ j, NoCall (body j)) (fuel : Nat)
    (s s' : VState W J E) (r : Except E Unit) (hs : s.performing = false)
    (h : vperform body fuel s = some (r, s')) :
    s'.queue = [] ∧ s'.performing = false ∧ s'.hooks = s.hooks ∧
    ∃ tr errs, s'.trace = s.trace ++ tr ∧
      Drains (fun j => (body j).plain) s.world s.queue tr errs s'.world ∧
      startedIn tr = s.queue ++ queuedIn tr ∧
      r = match failuresIn tr with | [] => .ok () | e :: _ => .error e := by
  unfold vperform vguarded at h
  rw [hs] at h
  simp only [Bool.false_eq_true, if_false] at h
  cases hd : vdrain body fuel (.ok ()) { s with performing := true } with
  | none => rw [hd] at h; cases h
  | some p =>
    obtain ⟨es, s1⟩ := p
    rw [hd] at h
    cases h
    obtain ⟨tr, es2, hdr, rfl, hq, _, hh, _, ht⟩ := vdrain_sound body hb fuel [] _ _ _ rfl hd
    refine ⟨hq, rfl, hh, tr, es2, ht, hdr, hdr.fifo.1, ?_⟩
    rw [hdr.fifo.2]
    cases es2 <;> rfl

/-- C51: a script that makes every call with explicit hooks loses no job: afterwards the VM's queue is
the queue before plus every job queued, in order, and none has been started.  Missing for the full
property: see `C51_lost_job_violated`. -/
theorem C51_no_job_lost_partial (body : J → VProg W J E) (fuel : Nat) (p : VProg W J E)
    (hp : NoCall p) (s : VState W J E) :
    ∃ r s' tr, script body (fuel + 1) p s = some (r, s') ∧ s'.trace = s.trace ++ tr ∧
      startedIn tr = [] ∧ s'.queue = s.queue ++ queuedIn tr ∧ s'.performing = s.performing := by
  obtain ⟨r, s', tr, h1, h2, h3, h4, h5⟩ := vexec_hooks body fuel p hp s.moveOut rfl rfl
  exact ⟨r, VState.moveBack s s', tr, by rw [script, h1], h2, h3, h4, h5⟩

/-- C51 fails in general: a job queued by code called through `call_without_host` while a script runs
is silently dropped when the script ends.  In JavaScript:
`Object.assign({ set a(v) { Promise.resolve().then(job) } }, { a: 1 })`
(`builtins.rs` 422 → `object_ops.rs` 314 → `vm.rs` 1177–1179 → `exec.rs` 641). -/
theorem C51_lost_job_violated :
    ∃ (p : VProg Unit Nat Unit) (s s' : VState Unit Nat Unit),
      s.queue = [] ∧ s.performing = false ∧ s.trace = [] ∧
      script (fun _ => .ret (.ok ())) 5 p s = some (.ok (), s') ∧
      queuedIn s'.trace = [7] ∧ startedIn s'.trace = [] ∧ s'.queue = [] :=
  ⟨.call (.enqueue 7 (.ret (.ok ()))) (fun _ => .ret (.ok ())),
    { world := (), queue := [], performing := false, hooks := [], hooksFlag := false, trace := [] },
    _, rfl, rfl, rfl, rfl, rfl, rfl, rfl⟩

/-- C52 fails for the VM's checkpoint in general: a job queues `1` and then, in an accessor called
through `call_without_host`, `2`; the VM runs `2` before `1`. -/
theorem C52_vm_order_violated :
    ∃ (body : Nat → VProg Unit Nat Unit) (s s' : VState Unit Nat Unit),
      s.queue = [0] ∧ s.performing = false ∧ s.trace = [] ∧
      vperform body 5 s = some (.ok (), s') ∧
      queuedIn s'.trace = [1, 2] ∧ startedIn s'.trace = [0, 2, 1] :=
  ⟨fun j => if j = 0 then
      .enqueue 1 (.call (.enqueue 2 (.ret (.ok ()))) (fun _ => .ret (.ok ())))
    else .ret (.ok ()),
    { world := (), queue := [0], performing := false, hooks := [], hooksFlag := false, trace := [] },
    _, rfl, rfl, rfl, rfl, rfl, rfl⟩

/-! ## The hypotheses are met -/

/-- Job `n` counts in the world, queues two jobs while the count is small, asks for a nested
checkpoint, and fails if `n` is odd. -/
def demoBody (n : Nat) : Prog Nat Nat Nat :=
  .read fun w => .write (w + 1) <|
    if w < 3 then .enqueue (2 * n) (.checkpoint fun _ => .enqueue (2 * n + 1)
      (.ret (if n % 2 = 0 then .ok () else .error n)))
    else .ret (if n % 2 = 0 then .ok () else .error n)

def demoState : State Nat Nat Nat := { world := 0, queue := [1, 2], performing := false, trace := [] }


example : ∃ s', perform demoBody 20 demoState = some ([1, 3, 5, 5], s') ∧
    startedIn s'.trace = [1, 2, 2, 3, 4, 5, 4, 5] ∧ s'.world = 8 := by
  refine ⟨_, rfl, ?_, ?_⟩ <;> decide +kernel

/-- A script that queues a job and asks for a checkpoint makes no call without hooks. -/
example : NoCall (.enqueue 3 (.checkpoint fun _ => .ret (.ok ())) : VProg Nat Nat Nat) :=
  .enqueue (.checkpoint fun _ => .ret)

/-- Jobs of the VM with explicit hooks only, one of which queues another. -/
example : ∃ s', vperform (E := Nat)
    (fun n => if n = 1 then .enqueue 5 (.checkpoint fun _ => .ret (.error 9)) else .ret (.error n)) 9
    { world := (), queue := [1, 2], performing := false, hooks := [], hooksFlag := false, trace := [] }
      = some (.error 9, s') ∧ startedIn s'.trace = [1, 2, 5] := ⟨_, rfl, rfl⟩

end Verif.Jobs
