import Verif.Loader.Model
/-!
# Loading a module graph: what a host relies on
-/

namespace Verif.Loader

open Verif.Modules (Str Request)

/-- Module `b` is reached from module `a` by following requests through the modules loaded for them. -/
inductive Reaches (mods : List Mod) : Nat → Nat → Prop where
  | refl (a : Nat) : Reaches mods a a
  | step {a b c : Nat} {r : Mod} {q : Request} : Reaches mods a b → mods[b]? = some r → q ∈ r.requests →
      imported mods b q = some c → Reaches mods a c

/-- The module exists, has been loaded, and each of its requests leads to a module. -/
def FullyLoaded (mods : List Mod) (m : Nat) : Prop :=
  ∃ r, mods[m]? = some r ∧ r.linked = true ∧ ∀ q ∈ r.requests, ∃ k, imported mods m q = some k

/-- How often the history settles the promise of load `l`. -/
def settlements (log : List Event) (l : Nat) : Nat :=
  log.countP (fun e => match e with | .settled k _ => k == l | _ => false)

/-- How often the history asks the host for `t`. -/
def askedFor (log : List Event) (t : Token) : Nat :=
  log.countP (fun e => match e with | .asked u => u == t | _ => false)

/-- The outcome of a load's promise, if it is settled. -/
def outcomeOf (w : World) (l : Nat) : Option Outcome := (w.loads[l]?).bind (·.outcome)

/-- Load `l` has nothing left to do or to wait for, besides what the top frame is about to finish. -/
def NothingPending (w : World) (st : List Frame) (l : Nat) : Prop :=
  (∀ t ∈ w.outstanding, t.load ≠ l) ∧
    ∀ f ∈ st, match f with
      | .inner k _ => k ≠ l
      | .loop k _ _ => k ≠ l
      | .after k _ _ => k ≠ l
      | .host _ => True

/-- The reasons for settling the promise of load `l`. -/
def Cause (c : Config) (l : Nat) : Outcome → Prop
  | .fulfilled => ∃ m st, c.stack = .loop l m [] :: st ∧ NothingPending c.world st l
  | .rejected (.host e) => ∃ i as st t, c.stack = .host (.finish i (.error e) :: as) :: st ∧
      c.world.outstanding[i]? = some t ∧ t.load = l
  | .rejected .conflict => ∃ i m as st t k, c.stack = .host (.finish i (.ok m) :: as) :: st ∧
      c.world.outstanding[i]? = some t ∧ t.load = l ∧
      imported c.world.mods t.referrer t.request = some k ∧ k ≠ m
  | .rejected .unsupported => ∃ m q qs st, c.stack = .loop l m (q :: qs) :: st ∧
      ∃ a ∈ q.attributes, a.key ∉ c.world.supported
  | .rejected .invalidModule => ∃ m st, c.stack = .inner l m :: st ∧ c.world.mods[m]? = none

/-- A configuration that occurs in some run of the host given by the three lists. -/
def Occurs (supported : List Str) (script : List (List Action)) (as : List Action) (c : Config) : Prop :=
  ∃ n, c = run n (initial supported script as)

end Verif.Loader
