/-!
# Model of the microtask queue

Models `/repo/vm-js/src/microtasks.rs` (`MicrotaskQueue`), `Vm::perform_microtask_checkpoint`
(`/repo/vm-js/src/vm.rs` 446–564), `Vm::call_without_host` (`vm.rs` 1169–1181) and the handling of the
queue by `JsRuntime::exec_script_source_with_host` (`/repo/vm-js/src/exec.rs` 605–643).

A job is a closure; here a job `j : J` has a *program* `body j`, an interaction tree that reads and
writes an arbitrary world `W` (heap, VM state, host state), queues jobs, and may itself ask for a
checkpoint.  Programs are arbitrary, so jobs are arbitrary re-entrant clients of the queue.

Simplifications: the realm stored beside each job is dropped (the code ignores it when running the
job); the persistent roots a job owns are not modelled here; a job that panics (the panic is resumed by
`Job::run` and unwinds through the checkpoint) is not modelled.
-/

namespace Verif.Jobs

/-- The body of a job. -/
inductive Prog (W J E : Type) where
  /-- return `Ok(())` or an error -/
  | ret (r : Except E Unit)
  | read (k : W → Prog W J E)
  | write (w : W) (k : Prog W J E)
  /-- `host.host_enqueue_promise_job(j, ..)` -/
  | enqueue (j : J) (k : Prog W J E)
  /-- `perform_microtask_checkpoint` on the queue that is running this job -/
  | checkpoint (k : List E → Prog W J E)

/-- What happens, as an observer sees it: a job is queued, a job starts, the running job returns, a
checkpoint asked for by the running job has returned these errors. -/
inductive Event (J E : Type) where
  | enq (j : J)
  | start (j : J)
  | finish (r : Except E Unit)
  | nested (errs : List E)

/-- `microtasks.rs` 17–21: the queue and the re-entrancy flag; the world; and the events so far. -/
structure State (W J E : Type) where
  world : W
  queue : List J
  performing : Bool
  trace : List (Event J E)

variable {W J E : Type}

/-- Append an event. -/
def State.note (s : State W J E) (e : Event J E) : State W J E := { s with trace := s.trace ++ [e] }

/-- `microtasks.rs` 29–33: `enqueue_promise_job` (and `host_enqueue_promise_job`, 104–107). -/
def State.push (s : State W J E) (j : J) : State W J E :=
  { s with
    queue := s.queue ++ [j]
    trace := s.trace ++ [.enq j] }

/-- `jobs.rs` 228–244: `Job::run`, with the queue itself as the host; `nested` is what a call of
`perform_microtask_checkpoint` from inside the job does (`none`: does not return). -/
def exec (nested : State W J E → Option (List E × State W J E)) :
    Prog W J E → State W J E → Option (Except E Unit × State W J E)
  | .ret r, s => some (r, s)
  | .read k, s => exec nested (k s.world) s
  | .write w k, s => exec nested k { s with world := w }
  | .enqueue j k, s => exec nested k (s.push j)
  | .checkpoint k, s =>
    match nested s with
    | none => none
    | some (es, s') => exec nested (k es) (s'.note (.nested es))

/-- `microtasks.rs` 77–80: the error of a job, if any, is collected. -/
def errorOf : Except E Unit → List E
  | .error e => [e]
  | .ok _ => []

/-- `microtasks.rs` 70–86 without the loop: return at once if a checkpoint is in progress, otherwise
set the flag, drain, reset the flag. -/
def guarded (drain : List E → State W J E → Option (List E × State W J E)) (s : State W J E) :
    Option (List E × State W J E) :=
  if s.performing then some ([], s)
  else
    match drain [] { s with performing := true } with
    | none => none
    | some (es, s') => some (es, { s' with performing := false })

/-- `microtasks.rs` 77–81: one round of the loop: the oldest job `j` has been taken off the queue
(leaving `q`) and is run; `d` is the loop a nested checkpoint would enter. -/
def round (d : List E → State W J E → Option (List E × State W J E)) (body : J → Prog W J E)
    (j : J) (q : List J) (es : List E) (s : State W J E) : Option (List E × State W J E) :=
  match exec (guarded d) (body j) (({ s with queue := q } : State W J E).note (.start j)) with
  | none => none
  | some (r, s') => some (es ++ errorOf r, s'.note (.finish r))

/-- `microtasks.rs` 76–82: the loop, with the errors so far.  The first argument bounds the number of
rounds; `none` means the bound was too small. -/
def drain (body : J → Prog W J E) : Nat → List E → State W J E → Option (List E × State W J E)
  | 0, _, _ => none
  | fuel + 1, es, s =>
    match s.queue with
    | [] => some (es, s)
    | j :: q =>
      match round (drain body fuel) body j q es s with
      | none => none
      | some (es', s') => drain body fuel es' s'

/-- The state after at most `n` rounds of the same loop, whether or not it ever ends (it stops early
when the queue is empty). -/
def rounds (body : J → Prog W J E) : Nat → List E → State W J E → Option (List E × State W J E)
  | 0, es, s => some (es, s)
  | n + 1, es, s =>
    match s.queue with
    | [] => some (es, s)
    | j :: q =>
      match round (fun _ _ => none) body j q es s with
      | none => none
      | some (es', s') => rounds body n es' s'

/-- `microtasks.rs` 70–86: `perform_microtask_checkpoint`. -/
def perform (body : J → Prog W J E) (fuel : Nat) (s : State W J E) :
    Option (List E × State W J E) :=
  guarded (drain body fuel) s

/-- `microtasks.rs` 92–96: `teardown` (jobs are discarded without running). -/
def teardown (s : State W J E) : State W J E := { s with queue := [] }

/-! ## The queue inside the VM -/

/-- The body of a job (or of a script) run by the VM. -/
inductive VProg (W J E : Type) where
  | ret (r : Except E Unit)
  | read (k : W → VProg W J E)
  | write (w : W) (k : VProg W J E)
  /-- `hooks.host_enqueue_promise_job(j, ..)` on the host hooks in force -/
  | enqueue (j : J) (k : VProg W J E)
  /-- a call made with `Vm::call_without_host` (`vm.rs` 1169–1181), as accessor properties read by
  `Scope::ordinary_get` and written by `Scope::ordinary_set` make (`object_ops.rs` 165 and 314) -/
  | call (p : VProg W J E) (k : Except E Unit → VProg W J E)
  /-- `Vm::perform_microtask_checkpoint` -/
  | checkpoint (k : Except E Unit → VProg W J E)

/-- `Vm::microtasks` (queue and flag), the host hooks in force (a queue with its flag: the
`LocalHost` of a checkpoint, whose flag is unused, or a queue moved out of the VM), the world and the
events so far. -/
structure VState (W J E : Type) where
  world : W
  queue : List J
  performing : Bool
  hooks : List J
  hooksFlag : Bool
  trace : List (Event J E)

/-- `host_enqueue_promise_job` of the hooks in force (`vm.rs` 509–511, `microtasks.rs` 104–107). -/
def VState.push (s : VState W J E) (j : J) : VState W J E :=
  { s with
    hooks := s.hooks ++ [j]
    trace := s.trace ++ [.enq j] }

/-- Append an event. -/
def VState.note (s : VState W J E) (e : Event J E) : VState W J E :=
  { s with trace := s.trace ++ [e] }

/-- `vm.rs` 1177: `let mut hooks = mem::take(&mut self.microtasks)`. -/
def VState.moveOut (s : VState W J E) : VState W J E :=
  { s with
    queue := []
    performing := false
    hooks := s.queue
    hooksFlag := s.performing }

/-- `vm.rs` 1179: `self.microtasks = hooks` (overwriting whatever is there); the hooks of `outer` are
in force again. -/
def VState.moveBack (outer s : VState W J E) : VState W J E :=
  { s with
    queue := s.hooks
    performing := s.hooksFlag
    hooks := outer.hooks
    hooksFlag := outer.hooksFlag }

/-- A program run by the VM with the hooks in force. -/
def vexec (nested : VState W J E → Option (Except E Unit × VState W J E)) :
    VProg W J E → VState W J E → Option (Except E Unit × VState W J E)
  | .ret r, s => some (r, s)
  | .read k, s => vexec nested (k s.world) s
  | .write w k, s => vexec nested k { s with world := w }
  | .enqueue j k, s => vexec nested k (s.push j)
  | .call p k, s =>
    match vexec nested p s.moveOut with
    | none => none
    | some (r, s') => vexec nested (k r) (VState.moveBack s s')
  | .checkpoint k, s =>
    match nested s with
    | none => none
    | some (r, s') => vexec nested (k r) (s'.note (.nested (errorOf r)))

/-- `vm.rs` 551–555: keep the first error. -/
def firstError : Except E Unit → Except E Unit → Except E Unit
  | .ok _, r => r
  | .error e, _ => .error e

/-- `vm.rs` 529–531 and 558–563: the guard around the loop. -/
def vguarded (drain : Except E Unit → VState W J E → Option (Except E Unit × VState W J E))
    (s : VState W J E) : Option (Except E Unit × VState W J E) :=
  if s.performing then some (.ok (), s)
  else
    match drain (.ok ()) { s with performing := true } with
    | none => none
    | some (r, s') => some (r, { s' with performing := false })

/-- `vm.rs` 543–549: a fresh `LocalHost` for the job, whose pending jobs are appended to the VM's
queue afterwards. -/
def localHost (s : VState W J E) : VState W J E :=
  { s with
    hooks := []
    hooksFlag := false }

/-- `vm.rs` 549: `host.drain_into(&mut ctx.vm.microtasks)`; the hooks of `outer` are in force again. -/
def drainInto (outer s : VState W J E) : VState W J E :=
  { s with
    queue := s.queue ++ s.hooks
    hooks := outer.hooks
    hooksFlag := outer.hooksFlag }

/-- `vm.rs` 537–556: the loop. -/
def vdrain (body : J → VProg W J E) :
    Nat → Except E Unit → VState W J E → Option (Except E Unit × VState W J E)
  | 0, _, _ => none
  | fuel + 1, first, s =>
    match s.queue with
    | [] => some (first, s)
    | j :: q =>
      match vexec (vguarded (vdrain body fuel)) (body j)
          (localHost (({ s with queue := q } : VState W J E).note (.start j))) with
      | none => none
      | some (r, s') =>
        vdrain body fuel (firstError first r) ((drainInto s s').note (.finish r))

/-- `vm.rs` 446–564: `Vm::perform_microtask_checkpoint`. -/
def vperform (body : J → VProg W J E) (fuel : Nat) (s : VState W J E) :
    Option (Except E Unit × VState W J E) :=
  vguarded (vdrain body fuel) s

/-- `exec.rs` 605–643: `exec_script_source_with_host` moves the queue out of the VM, runs the script
with it as the hooks, and stores it back. -/
def script (body : J → VProg W J E) (fuel : Nat) (p : VProg W J E) (s : VState W J E) :
    Option (Except E Unit × VState W J E) :=
  match vexec (vperform body fuel) p s.moveOut with
  | none => none
  | some (r, s') => some (r, VState.moveBack s s')

end Verif.Jobs
