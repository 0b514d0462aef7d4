import Verif.Promises.Model
/-!
# What clients of promises rely on

Everything is stated in terms of the events an observer sees (`then` calls, reaction jobs queued,
rejections, notifications) and of the state and result of promises, which the API exposes.
-/

namespace Verif.Promises

variable {V : Type}

/-- States reachable by any client. -/
inductive Reachable : St V → Prop where
  | init : Reachable St.init
  | step {s op} : Reachable s → Reachable (step s op)

/-- The `then` calls on `p`, in order. -/
def callsOf (p : Nat) : List (Event V) → List Nat
  | [] => []
  | .thenCalled q c :: tr => if q = p then c :: callsOf p tr else callsOf p tr
  | _ :: tr => callsOf p tr

/-- The reaction jobs queued on behalf of `then` calls on `p`, in order, with their argument. -/
def jobsOf (p : Nat) : List (Event V) → List (Reaction × V)
  | [] => []
  | .job r v :: tr => if r.promise = p then (r, v) :: jobsOf p tr else jobsOf p tr
  | _ :: tr => jobsOf p tr

/-- The promises rejected, in order. -/
def rejectedIn : List (Event V) → List Nat
  | [] => []
  | .rejected p :: tr => p :: rejectedIn tr
  | _ :: tr => rejectedIn tr

/-- The promises the host was given to notify, in order. -/
def notifiedIn : List (Event V) → List Nat
  | [] => []
  | .notify ps :: tr => ps ++ notifiedIn tr
  | _ :: tr => notifiedIn tr

/-- The promises for which the host fired `unhandledrejection` and which were unhandled afterwards. -/
def reportedIn : List (Event V) → List Nat
  | [] => []
  | .reported p :: tr => p :: reportedIn tr
  | _ :: tr => reportedIn tr

/-- The promises for which `rejectionhandled` was requested. -/
def rejectionHandledIn : List (Event V) → List Nat
  | [] => []
  | .rejectionHandled p :: tr => p :: rejectionHandledIn tr
  | _ :: tr => rejectionHandledIn tr

/-- Memory never ran out. -/
def Ample (tr : List (Event V)) : Prop := Event.oom ∉ tr

/-- The promise `p` is settled with this state and value. -/
def Settled (s : St V) (p : Nat) (st : PState) (v : V) : Prop :=
  st ≠ .pending ∧ ∃ x, s.promises[p]? = some x ∧ x.state = st ∧ x.result = some v

/-- The promise `p` is pending. -/
def Pending (s : St V) (p : Nat) : Prop :=
  ∃ x, s.promises[p]? = some x ∧ x.state = .pending

end Verif.Promises
