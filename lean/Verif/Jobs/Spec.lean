import Verif.Jobs.Model
/-!
# What a client of the microtask queue relies on
-/

namespace Verif.Jobs

variable {W J E : Type}

/-- The jobs queued during `tr`, in order. -/
def queuedIn : List (Event J E) → List J
  | [] => []
  | .enq j :: tr => j :: queuedIn tr
  | _ :: tr => queuedIn tr

/-- The jobs started during `tr`, in order. -/
def startedIn : List (Event J E) → List J
  | [] => []
  | .start j :: tr => j :: startedIn tr
  | _ :: tr => startedIn tr

/-- The errors with which jobs ended during `tr`, in order. -/
def failuresIn : List (Event J E) → List E
  | [] => []
  | .finish (.error e) :: tr => e :: failuresIn tr
  | _ :: tr => failuresIn tr

/-- A program run by itself, from beginning to end, in the world `w`: the events it causes, its result
and the world it leaves.  A checkpoint it asks for does nothing and returns no errors. -/
inductive Runs : Prog W J E → W → List (Event J E) → Except E Unit → W → Prop where
  | ret {r w} : Runs (.ret r) w [] r w
  | read {k w tr r w'} : Runs (k w) w tr r w' → Runs (.read k) w tr r w'
  | write {v k w tr r w'} : Runs k v tr r w' → Runs (.write v k) w tr r w'
  | enqueue {j k w tr r w'} : Runs k w tr r w' → Runs (.enqueue j k) w (.enq j :: tr) r w'
  | checkpoint {k w tr r w'} : Runs (k []) w tr r w' →
      Runs (.checkpoint k) w (.nested [] :: tr) r w'

/-- Running a queue of jobs to exhaustion, oldest first, each from beginning to end, jobs queued on the
way going to the back. -/
inductive Drains (body : J → Prog W J E) :
    W → List J → List (Event J E) → List E → W → Prop where
  | done {w} : Drains body w [] [] [] w
  | next {w j q acts r w' tr es w''} : Runs (body j) w acts r w' →
      Drains body w' (q ++ queuedIn acts) tr es w'' →
      Drains body w (j :: q) (.start j :: acts ++ .finish r :: tr) (errorOf r ++ es) w''

/-- The events of one job: it starts, it queues jobs and asks for checkpoints that return nothing, and
it ends, with no other job in between. -/
def IsBlock (tr : List (Event J E)) : Prop :=
  ∃ j acts r, tr = .start j :: (acts ++ [.finish r]) ∧
    ∀ a ∈ acts, (∃ j, a = .enq j) ∨ a = .nested []

/-- The program makes no calls without host hooks. -/
inductive NoCall : VProg W J E → Prop where
  | ret {r} : NoCall (.ret r)
  | read {k} : (∀ w, NoCall (k w)) → NoCall (.read k)
  | write {w k} : NoCall k → NoCall (.write w k)
  | enqueue {j k} : NoCall k → NoCall (.enqueue j k)
  | checkpoint {k} : (∀ r, NoCall (k r)) → NoCall (.checkpoint k)

/-- The same program, seen as a client of the plain queue: a nested checkpoint answers `Ok`. -/
def VProg.plain : VProg W J E → Prog W J E
  | .ret r => .ret r
  | .read k => .read (fun w => (k w).plain)
  | .write w k => .write w k.plain
  | .enqueue j k => .enqueue j k.plain
  | .call _ k => (k (.ok ())).plain
  | .checkpoint k => .checkpoint (fun _ => (k (.ok ())).plain)

end Verif.Jobs
