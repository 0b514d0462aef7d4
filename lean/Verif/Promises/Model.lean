/-!
# Model of promises and of the rejection tracker

Models the promise built-ins of `/repo/vm-js/src/builtins.rs` (`create_promise_resolving_functions`,
`promise_resolving_function_call`, `resolve_promise`, `fulfill_promise`, `reject_promise`,
`trigger_promise_reactions`, `enqueue_promise_reaction_job`, `perform_promise_then`), the promise slots
of `/repo/vm-js/src/heap.rs` (`promise_settle_and_take_reactions`, `promise_append_reaction`,
`promise_set_is_handled`, `promise_set_state_and_result`) and
`/repo/vm-js/src/promise_rejection_tracker.rs`, connected the way an embedding connects them: the
engine's `host_promise_rejection_tracker` calls go to the tracker.

A client is any sequence of the operations `Op` below.  JavaScript code that runs inside an operation
(the `then` getter of a resolution) is covered by splitting `resolve` of an object in two operations,
between which anything may happen; handlers and executors run between operations.

Simplifications: values are of an arbitrary type `V`; a promise is its index in a table that only grows
(the heap's handles are unique for the lifetime of the heap, see C02); the realm of a job and the
persistent roots it holds are not modelled; memory failures are parameters of the operations that
allocate, and every point of the code that can fail for lack of memory is one of their cases.
-/

namespace Verif.Promises

/-- `PromiseState`. -/
inductive PState where
  | pending
  | fulfilled
  | rejected
deriving DecidableEq, Repr

/-- `PromiseReaction` (`promise.rs`): which `then` call it belongs to (its capability and handler are
created by that call) and its type (`fulfilled` or `rejected`). -/
structure Reaction where
  promise : Nat
  call : Nat
  type : PState
deriving DecidableEq, Repr

/-- `JsPromise`: `[[PromiseState]]`, `[[PromiseResult]]`, `[[PromiseIsHandled]]` and the two reaction
lists (`None` is modelled as the empty list). -/
structure Slot (V : Type) where
  state : PState
  result : Option V
  handled : Bool
  onFulfilled : List Reaction
  onRejected : List Reaction
deriving DecidableEq, Repr

/-- `alloc_promise_with_prototype`: a fresh pending promise. -/
def Slot.fresh {V : Type} : Slot V :=
  { state := .pending
    result := none
    handled := false
    onFulfilled := []
    onRejected := [] }

/-- A pair of resolving functions: the promise and the shared `alreadyResolved` binding
(`builtins.rs` 878–937). -/
structure Resolver where
  promise : Nat
  already : Bool
deriving DecidableEq, Repr

/-- What an observer sees. -/
inductive Event (V : Type) where
  /-- `then` was called on the promise -/
  | thenCalled (p call : Nat)
  /-- the promise was rejected -/
  | rejected (p : Nat)
  /-- a reaction job was queued -/
  | job (r : Reaction) (arg : V)
  /-- a `PromiseResolveThenableJob` was queued for the promise -/
  | thenableJob (p : Nat)
  /-- the host drained these promises from the tracker, to fire `unhandledrejection` -/
  | notify (ps : List Nat)
  /-- the host has fired `unhandledrejection` for the promise and it is still unhandled -/
  | reported (p : Nat)
  /-- the tracker asked for `rejectionhandled` -/
  | rejectionHandled (p : Nat)
  /-- an allocation failed -/
  | oom
deriving DecidableEq, Repr

/-- Promises, resolving functions, resolutions whose `then` getter is running, the tracker
(`promise_rejection_tracker.rs` 41–48), the batches the host has drained but not finished
dispatching, and the events so far. -/
structure St (V : Type) where
  promises : List (Slot V)
  resolvers : List Resolver
  inflight : List (Nat × V)
  about : List Nat
  outstanding : List Nat
  batch : List Nat
  trace : List (Event V)
deriving DecidableEq, Repr

variable {V : Type}

/-- The initial state. -/
def St.init : St V :=
  { promises := []
    resolvers := []
    inflight := []
    about := []
    outstanding := []
    batch := []
    trace := [] }

/-- Append an event. -/
def St.note (s : St V) (e : Event V) : St V := { s with trace := s.trace ++ [e] }

/-- Update one promise. -/
def St.modify (s : St V) (p : Nat) (f : Slot V → Slot V) : St V :=
  { s with promises := s.promises.modify p f }

/-! ## The tracker -/

/-- `promise_rejection_tracker.rs` 58–70: `on_reject`; without memory the promise is not tracked. -/
def St.onReject (s : St V) (p : Nat) (oom : Bool) : St V :=
  if oom then s.note .oom else { s with about := s.about ++ [p] }

/-- `promise_rejection_tracker.rs` 73–95: `on_handle`. -/
def St.onHandle (s : St V) (p : Nat) : St V :=
  if p ∈ s.about then { s with about := s.about.erase p }
  else if p ∈ s.outstanding then
    ({ s with outstanding := s.outstanding.filter (· ≠ p) } : St V).note (.rejectionHandled p)
  else s

/-- `promise_rejection_tracker.rs` 101–137: `drain_about_to_be_notified`. -/
def St.drain (s : St V) (oom : Bool) : St V :=
  if oom then s.note .oom
  else
    ({ s with
       about := []
       batch := s.batch ++ s.about } : St V).note (.notify s.about)

/-- `promise_rejection_tracker.rs` 143–155: `after_unhandledrejection_dispatch`, called by the host
with the promise's `[[PromiseIsHandled]]` for the promises of a drained batch. -/
def St.afterDispatch (s : St V) (p : Nat) (isHandled : Bool) : St V :=
  if isHandled then { s with batch := s.batch.erase p }
  else
    ({ s with
       batch := s.batch.erase p
       outstanding := p :: s.outstanding.filter (· ≠ p) } : St V).note (.reported p)

/-! ## Settling -/

/-- `heap.rs` 1619–1657: `promise_settle_and_take_reactions` on a pending promise. -/
def Slot.settle (x : Slot V) (st : PState) (v : V) : Slot V :=
  { x with
    state := st
    result := some v
    onFulfilled := []
    onRejected := [] }

/-- `builtins.rs` 1044–1055: `trigger_promise_reactions` (with `enqueue_promise_reaction_job`,
939–1042): one job per reaction, in order; the reaction at index `fail` finds no memory and the loop
stops there. -/
def trigger (v : V) : List Reaction → Option Nat → St V → St V
  | [], _, s => s
  | _ :: _, some 0, s => s.note .oom
  | r :: rs, some (k + 1), s => trigger v rs (some k) (s.note (.job r v))
  | r :: rs, none, s => trigger v rs none (s.note (.job r v))

/-- `builtins.rs` 1057–1069: `fulfill_promise` (settling does nothing, and hands out no reactions, if
the promise is not pending). -/
def St.fulfill (s : St V) (p : Nat) (v : V) (fail : Option Nat) : St V :=
  match s.promises[p]? with
  | none => s
  | some x =>
    if x.state = .pending then
      trigger v x.onFulfilled fail (s.modify p (fun x => x.settle .fulfilled v))
    else s

/-- `builtins.rs` 1082–1092: the tracker is told about an unhandled rejection. -/
def St.track (s : St V) (p : Nat) (handled oom : Bool) : St V :=
  if handled then s else s.onReject p oom

/-- `builtins.rs` 1071–1095: `reject_promise`. -/
def St.reject (s : St V) (p : Nat) (v : V) (fail : Option Nat) (trackOom : Bool) : St V :=
  match s.promises[p]? with
  | none => s
  | some x =>
    if x.state = .pending then
      trigger v x.onRejected fail
        (((s.modify p (fun x => x.settle .rejected v)).note (.rejected p)).track p x.handled trackOom)
    else s

/-- `builtins.rs` 1343–1376: the `alreadyResolved` check of `promise_resolving_function_call`: `none`
if the pair has been used (or does not exist), otherwise mark it used. -/
def St.useResolver (s : St V) (r : Nat) : Option (Nat × St V) :=
  match s.resolvers[r]? with
  | none => none
  | some x =>
    if x.already then none
    else some (x.promise, { s with resolvers := s.resolvers.set r { x with already := true } })

/-! ## Operations -/

/-- The operations.  `fail` is the index of the allocation that fails, if any. -/
inductive Op (V : Type) where
  /-- `new Promise(...)`: a promise and its resolving functions -/
  | create (oom : Bool)
  /-- the reject function of pair `r` is called -/
  | reject (r : Nat) (v : V) (fail : Option Nat) (trackOom : Bool)
  /-- the resolve function of pair `r` is called with a value that is not an object -/
  | resolveValue (r : Nat) (v : V) (fail : Option Nat)
  /-- the resolve function of pair `r` is called with the promise itself; `e` is the `TypeError` -/
  | resolveSelf (r : Nat) (e : V) (errOom : Bool) (fail : Option Nat) (trackOom : Bool)
  /-- the resolve function of pair `r` is called with another object; the `then` getter starts -/
  | resolveObject (r : Nat) (v : V)
  /-- the `then` getter of the `i`-th such resolution throws `e` -/
  | getterThrows (i : Nat) (e : V) (fail : Option Nat) (trackOom : Bool)
  /-- it returns something that is not callable -/
  | notThenable (i : Nat) (fail : Option Nat)
  /-- it returns a function -/
  | thenable (i : Nat) (oom : Bool)
  /-- it ends with a VM error (termination), which is passed on -/
  | getterAborts (i : Nat)
  /-- `then` on promise `p`; `call` identifies the call -/
  | then (p call : Nat) (fail : Option Nat)
  /-- the host drains the tracker -/
  | drain (oom : Bool)
  /-- the host has fired `unhandledrejection` for `p` -/
  | dispatched (p : Nat)
deriving DecidableEq, Repr

/-- A fresh promise. -/
def St.addPromise (s : St V) : St V := { s with promises := s.promises ++ [.fresh] }

/-- Fresh resolving functions for `p` (`builtins.rs` 878–937). -/
def St.addResolver (s : St V) (p : Nat) : St V :=
  { s with resolvers := s.resolvers ++ [{ promise := p, already := false }] }

/-- `new Promise`. -/
def St.create (s : St V) (oom : Bool) : St V :=
  if oom then s.note .oom else s.addPromise.addResolver s.promises.length

/-- `builtins.rs` 1498–1527: the last part of `perform_promise_then`: register the reactions of a
pending promise, or queue the job of a settled one.  `fail` counts the remaining allocations. -/
def St.register (s : St V) (p call : Nat) (fail : Option Nat) : St V :=
  match s.promises[p]? with
  | none => s
  | some x =>
    match x.state with
    | .pending =>
      if fail = some 0 then s.note .oom
      else if fail = some 1 then
        (s.modify p (fun x => { x with
          onFulfilled := x.onFulfilled ++ [{ promise := p, call := call, type := .fulfilled }] })).note
            .oom
      else
        s.modify p (fun x => { x with
          onFulfilled := x.onFulfilled ++ [{ promise := p, call := call, type := .fulfilled }]
          onRejected := x.onRejected ++ [{ promise := p, call := call, type := .rejected }] })
    | .fulfilled =>
      match x.result with
      | none => s
      | some v => trigger v [{ promise := p, call := call, type := .fulfilled }] fail s
    | .rejected =>
      match x.result with
      | none => s
      | some v => trigger v [{ promise := p, call := call, type := .rejected }] fail s

/-- `builtins.rs` 1446–1454: the tracker is told if this is the first handler of a rejected promise,
and the promise becomes handled. -/
def St.markHandled (s : St V) (p : Nat) (x : Slot V) : St V :=
  (if x.state = .rejected ∧ x.handled = false then s.onHandle p else s).modify p
    (fun x => { x with handled := true })

/-- `builtins.rs` 1420–1530: `perform_promise_then`.  Allocation 0 is the derived promise, 1 its
resolving functions, the rest are those of `register`. -/
def St.performThen (s : St V) (p call : Nat) (fail : Option Nat) : St V :=
  match s.promises[p]? with
  | none => s
  | some x =>
    match fail with
    | some 0 => ((s.note (.thenCalled p call)).markHandled p x).note .oom
    | some 1 => ((s.note (.thenCalled p call)).markHandled p x).addPromise.note .oom
    | some (k + 2) =>
      (((s.note (.thenCalled p call)).markHandled p x).addPromise.addResolver
        s.promises.length).register p call (some k)
    | none =>
      (((s.note (.thenCalled p call)).markHandled p x).addPromise.addResolver
        s.promises.length).register p call none

/-- `builtins.rs` 1108–1113: self-resolution (creating the `TypeError` may find no memory). -/
def St.rejectSelf (s : St V) (p : Nat) (e : V) (errOom : Bool) (fail : Option Nat)
    (trackOom : Bool) : St V :=
  if errOom then s.note .oom else s.reject p e fail trackOom

/-- `builtins.rs` 1170–1224: the thenable job gets fresh resolving functions. -/
def St.scheduleThenable (s : St V) (p : Nat) (oom : Bool) : St V :=
  if oom then s.note .oom else (s.addResolver p).note (.thenableJob p)

/-- One operation. -/
def step (s : St V) : Op V → St V
  | .create oom => s.create oom
  | .reject r v fail t =>
    match s.useResolver r with
    | none => s
    | some (p, s') => s'.reject p v fail t
  | .resolveValue r v fail =>
    match s.useResolver r with
    | none => s
    | some (p, s') => s'.fulfill p v fail
  | .resolveSelf r e o fail t =>
    match s.useResolver r with
    | none => s
    | some (p, s') => s'.rejectSelf p e o fail t
  | .resolveObject r v =>
    match s.useResolver r with
    | none => s
    | some (p, s') => { s' with inflight := s'.inflight ++ [(p, v)] }
  | .getterThrows i e fail t =>
    match s.inflight[i]? with
    | none => s
    | some (p, _) => ({ s with inflight := s.inflight.eraseIdx i } : St V).reject p e fail t
  | .notThenable i fail =>
    match s.inflight[i]? with
    | none => s
    | some (p, v) => ({ s with inflight := s.inflight.eraseIdx i } : St V).fulfill p v fail
  | .thenable i oom =>
    match s.inflight[i]? with
    | none => s
    | some (p, _) => ({ s with inflight := s.inflight.eraseIdx i } : St V).scheduleThenable p oom
  | .getterAborts i =>
    match s.inflight[i]? with
    | none => s
    | some _ => { s with inflight := s.inflight.eraseIdx i }
  | .then p call fail => s.performThen p call fail
  | .drain oom => s.drain oom
  | .dispatched p =>
    if p ∈ s.batch then
      match s.promises[p]? with
      | none => s
      | some x => s.afterDispatch p x.handled
    else s

/-- A sequence of operations. -/
def run (s : St V) (ops : List (Op V)) : St V := ops.foldl step s

/-- `heap.rs` 1568–1612 and 1660–1668: the public low-level `Heap::promise_fulfill` /
`promise_reject`, which do not look at the current state. -/
def St.rawSettle (s : St V) (p : Nat) (st : PState) (v : V) : St V :=
  s.modify p (fun x => x.settle st v)

end Verif.Promises
