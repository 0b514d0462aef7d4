import Verif.Modules.Model
/-!
# Loading a module graph: model

Source: `vm-js/src/module_loading.rs` 109–260 (`GraphLoadingState`), 379–391 (`load_requested_modules`),
393–489 (`inner_module_loading`), 491–539 (`finish_loading_imported_module`), 541–568
(`continue_module_loading`), 731–735 (`all_import_attributes_supported`).

The functions call each other and, through the host hook, the host, which may call back at once. Their call
stack is represented explicitly: a configuration is a world and a list of frames, and `step` performs the
next action of the top frame. The host is an arbitrary list of actions performed at top level and, for each
call of its hook, an arbitrary list of actions performed before the hook returns (`script`). As all lists
are considered, this covers every host, synchronous, asynchronous or a mixture, with any number of
overlapping loads.

Simplifications.
* Memory does not run out and the pending counter (`usize`) does not overflow.
* The hook itself returns `Ok(())`: a host reports failures through `finish_loading_imported_module`.
* A module's status is `New` or `Unlinked` (nothing in the crate sets another one).
* The promise is its outcome; `promise_roots` is present exactly until the promise is settled.
* `host_defined` data is passed through and not modelled.
* `root` of a load and the `log` of a world are not in the code; they only record the history.
-/

namespace Verif.Loader

open Verif.Modules (Str Attr Request requestsEqual)

/-- `module_record.rs` 80–102: the parts of a module record used by loading. `linked` is
`status == Unlinked` (otherwise `New`). -/
structure Mod where
  requests : List Request
  loaded : List (Request × Nat) := []
  linked : Bool := false
deriving DecidableEq, Repr

/-- Why a load fails. -/
inductive Error where
  /-- reported by the host -/
  | host (e : Nat)
  /-- `VmError::InvalidHandle`, line 403 -/
  | invalidModule
  /-- `InvariantViolation`, lines 517–520 -/
  | conflict
  /-- unsupported import attribute, lines 422–458 -/
  | unsupported
deriving DecidableEq, Repr

/-- How a load's promise is settled. -/
inductive Outcome where
  | fulfilled
  | rejected (e : Error)
deriving DecidableEq, Repr

/-- `module_loading.rs` 115–123: `GraphLoadingStateInner`. -/
structure Load where
  root : Nat
  isLoading : Bool
  pending : Nat
  visited : List Nat
  outcome : Option Outcome
deriving DecidableEq, Repr

/-- A call of the host hook that has not been answered: the load (payload), the referrer and the request. -/
structure Token where
  load : Nat
  referrer : Nat
  request : Request
deriving DecidableEq, Repr

/-- What a host does. -/
inductive Action where
  /-- add a module to the graph -/
  | addModule (requests : List Request)
  /-- call `load_requested_modules` -/
  | start (root : Nat)
  /-- call `finish_loading_imported_module` for the `i`-th unanswered call of the hook -/
  | finish (i : Nat) (result : Except Nat Nat)
deriving Repr

/-- History. -/
inductive Event where
  | asked (t : Token)
  | answered (t : Token) (result : Except Nat Nat)
  | settled (l : Nat) (o : Outcome)

/-- The module graph, the loads, the unanswered calls and what remains of the host. -/
structure World where
  mods : List Mod := []
  loads : List Load := []
  outstanding : List Token := []
  supported : List Str := []
  script : List (List Action) := []
  log : List Event := []

/-- One activation on the call stack. -/
inductive Frame where
  /-- `inner_module_loading(state, module)`, about to start -/
  | inner (l m : Nat)
  /-- `inner_module_loading`, at the head of the loop over requests (line 420); with no request left, at
  line 472 -/
  | loop (l m : Nat) (qs : List Request)
  /-- `inner_module_loading`, after the call made for a request (line 467) -/
  | after (l m : Nat) (qs : List Request)
  /-- the host -/
  | host (as : List Action)
deriving Repr

/-- The call stack and the world. -/
structure Config where
  world : World
  stack : List Frame

/-- `module_graph.rs` 158–165: `get_imported_module`, on the referrer. -/
def Mod.imported (m : Mod) (q : Request) : Option Nat :=
  (m.loaded.find? (fun l => requestsEqual l.1 q)).map Prod.snd

/-- `module_graph.rs` 158–165: `get_imported_module`. -/
def imported (mods : List Mod) (m : Nat) (q : Request) : Option Nat := (mods[m]?).bind (·.imported q)

/-- `module_loading.rs` 731–735: `all_import_attributes_supported`. -/
def allSupported (supported : List Str) (q : Request) : Bool :=
  q.attributes.all (fun a => supported.any (fun k => k == a.key))

/-- `module_loading.rs` 223–260: `resolve_promise` and `reject_promise`: the promise is settled unless it
already was. -/
def World.settle (w : World) (l : Nat) (o : Outcome) : World :=
  match w.loads[l]? with
  | none => w
  | some L =>
    match L.outcome with
    | some _ => w
    | none => { w with loads := w.loads.set l { L with outcome := some o }, log := w.log ++ [.settled l o] }

/-- `set_is_loading(false)` followed by `reject_promise`. -/
def World.fail (w : World) (l : Nat) (e : Error) : World :=
  match w.loads[l]? with
  | none => w
  | some L => World.settle { w with loads := w.loads.set l { L with isLoading := false } } l (.rejected e)

/-- `is_loading`. -/
def World.isLoading (w : World) (l : Nat) : Bool := (w.loads[l]?.map (·.isLoading)).getD false

/-- `module_loading.rs` 477–486: the new status of the visited modules. -/
def markLinked (visited : List Nat) (mods : List Mod) : List Mod :=
  mods.mapIdx (fun i (m : Mod) => if i ∈ visited ∧ m.linked = false then { m with linked := true } else m)

/-- `module_loading.rs` 472–488: the end of `inner_module_loading`. -/
def World.finishModule (w : World) (l : Nat) : World :=
  match w.loads[l]? with
  | none => w
  | some L =>
    if L.pending - 1 ≠ 0 then { w with loads := w.loads.set l { L with pending := L.pending - 1 } }
    else
      World.settle
        { w with
          loads := w.loads.set l { L with pending := L.pending - 1, isLoading := false }
          mods := markLinked L.visited w.mods } l .fulfilled

/-- `module_loading.rs` 542–568: `continue_module_loading`. -/
def continueLoading (w : World) (l : Nat) (result : Except Error Nat) (stack : List Frame) : Config :=
  if w.isLoading l then
    match result with
    | .ok m => { world := w, stack := .inner l m :: stack }
    | .error e => { world := w.fail l e, stack := stack }
  else { world := w, stack := stack }

/-- `module_loading.rs` 505–533: record the module for the referrer; `none` is the conflict. -/
def recordLoaded (mods : List Mod) (t : Token) (m : Nat) : Option (List Mod) :=
  match mods[t.referrer]? with
  | none => some mods
  | some r =>
    match r.loaded.find? (fun l => requestsEqual l.1 t.request) with
    | some e => if e.2 ≠ m then none else some mods
    | none => some (mods.set t.referrer { r with loaded := r.loaded ++ [(t.request, m)] })

/-- `module_loading.rs` 495–539: `finish_loading_imported_module`. -/
def finishImported (w : World) (t : Token) (result : Except Nat Nat) (stack : List Frame) : Config :=
  match result with
  | .error e => continueLoading w t.load (.error (.host e)) stack
  | .ok m =>
    match recordLoaded w.mods t m with
    | none => continueLoading w t.load (.error .conflict) stack
    | some mods => continueLoading { w with mods := mods } t.load (.ok m) stack

/-- One action of the host. `finish` on a call that does not exist, or was answered, does nothing. -/
def act (w : World) (a : Action) (stack : List Frame) : Config :=
  match a with
  | .addModule qs => { world := { w with mods := w.mods ++ [{ requests := qs }] }, stack := stack }
  | .start root =>
    -- lines 174–184, 387–390
    { world := { w with loads := w.loads ++
        [{ root := root, isLoading := true, pending := 1, visited := [], outcome := none }] }
      stack := .inner w.loads.length root :: stack }
  | .finish i result =>
    match w.outstanding[i]? with
    | none => { world := w, stack := stack }
    | some t =>
      finishImported { w with outstanding := w.outstanding.eraseIdx i, log := w.log ++ [.answered t result] }
        t result stack

/-- `module_loading.rs` 402–418: the beginning of `inner_module_loading`. -/
def enter (w : World) (l m : Nat) (stack : List Frame) : Config :=
  match w.mods[m]?, w.loads[l]? with
  | some r, some L =>
    if r.linked = false ∧ m ∉ L.visited then
      { world :=
          { w with
            loads := w.loads.set l
              { L with visited := L.visited ++ [m], pending := L.pending + r.requests.length } }
        stack := .loop l m r.requests :: stack }
    else { world := w, stack := .loop l m [] :: stack }
  | _, _ => { world := w.fail l .invalidModule, stack := stack }

/-- `module_loading.rs` 420–470: one request. -/
def request (w : World) (l m : Nat) (q : Request) (stack : List Frame) : Config :=
  if allSupported w.supported q = false then continueLoading w l (.error .unsupported) stack
  else
    match imported w.mods m q with
    | some k => { world := w, stack := .inner l k :: stack }
    | none =>
      let t : Token := { load := l, referrer := m, request := q }
      { world := { w with outstanding := w.outstanding ++ [t], script := w.script.tail, log := w.log ++ [.asked t] }
        stack := .host (w.script.headD []) :: stack }

/-- The next step of the top frame. -/
def step (c : Config) : Config :=
  match c.stack with
  | [] => c
  | .inner l m :: st => enter c.world l m st
  | .loop l m (q :: qs) :: st => request c.world l m q (.after l m qs :: st)
  | .loop l _ [] :: st => { world := c.world.finishModule l, stack := st }
  | .after l m qs :: st =>
    if c.world.isLoading l then { world := c.world, stack := .loop l m qs :: st }
    else { world := c.world, stack := st }
  | .host [] :: st => { world := c.world, stack := st }
  | .host (a :: as) :: st => act c.world a (.host as :: st)

/-- `n` steps. -/
def run : Nat → Config → Config
  | 0, c => c
  | n + 1, c => run n (step c)

/-- A host that starts with nothing, supports the attribute keys `supported`, performs `as` at top level
and `script` when its hook is called. -/
def initial (supported : List Str) (script : List (List Action)) (as : List Action) : Config :=
  { world := { supported := supported, script := script }, stack := [.host as] }

end Verif.Loader
