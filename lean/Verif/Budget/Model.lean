/-!
# Model of ticks, budgets and the frame stack

Models `Vm::tick`, `set_budget`, `reset_budget_to_default`, `push_budget`/`BudgetGuard`, `push_frame`,
`pop_frame`, `enter_frame`/`VmFrameGuard`, `capture_stack` and `terminate` of
`/repo/vm-js/src/vm.rs`, and the interrupt flag of `/repo/vm-js/src/interrupt.rs`.

Simplifications: instants are natural numbers; the interrupt flag and the clock belong to the outside
world, so each tick receives what the flag and the clock say at that moment (any values: other threads
set and clear the flag, and `Instant::now` is only assumed to return some instant); `fuel` and
`ticks` are numbers below `2^64` (`ticks` wraps, `fuel` only decreases); an overflowing
`Instant::now() + default_deadline` (no deadline) is `none`.
-/

namespace Verif.Budget

/-- `vm.rs` 131–136: `Budget`. -/
structure Budget where
  fuel : Option Nat
  deadline : Option Nat
  checkEvery : Nat
deriving DecidableEq, Repr

/-- `vm.rs` 149–158: `BudgetState`. -/
structure BudgetState where
  budget : Budget
  ticks : Nat
deriving DecidableEq, Repr

/-- `vm.rs` 100–115: the `VmOptions` that matter here. -/
structure Options where
  maxStackDepth : Nat
  defaultFuel : Option Nat
  defaultDeadline : Option Nat
  checkEvery : Nat
deriving DecidableEq, Repr

/-- The part of `Vm` modelled; the stack is outermost first, as in the code. -/
structure Vm (F : Type) where
  options : Options
  budget : BudgetState
  stack : List F
deriving DecidableEq, Repr

/-- `TerminationReason`. -/
inductive Reason where
  | outOfFuel
  | interrupted
  | deadlineExceeded
  | stackOverflow
deriving DecidableEq, Repr

/-- `Result<(), VmError>`: success, or termination with the stack trace captured. -/
inductive Res (F : Type) where
  | ok
  | terminated (why : Reason) (trace : List F)
deriving DecidableEq, Repr

/-- What the outside world shows a tick: the interrupt flag and the clock. -/
structure Input where
  interrupted : Bool
  now : Nat
deriving DecidableEq, Repr

variable {F : Type}

/-- `vm.rs` 1022–1026: `capture_stack`, innermost first. -/
def Vm.captureStack (vm : Vm F) : List F := vm.stack.reverse

/-- `vm.rs` 1085–1087: `terminate`. -/
def Vm.terminate (vm : Vm F) (why : Reason) : Res F := .terminated why vm.captureStack

/-- `vm.rs` 1112: `self.budget.ticks.wrapping_add(1)`. -/
def Vm.bumpTicks (vm : Vm F) : Vm F :=
  { vm with budget := { vm.budget with ticks := (vm.budget.ticks + 1) % 2 ^ 64 } }

/-- `vm.rs` 1109: `*fuel -= 1`. -/
def Vm.burn (vm : Vm F) (n : Nat) : Vm F :=
  { vm with budget := { vm.budget with budget := { vm.budget.budget with fuel := some (n - 1) } } }

/-- `vm.rs` 1112–1127: the rest of `tick` after the fuel check. -/
def Vm.tickRest (vm : Vm F) (inp : Input) : Res F × Vm F :=
  if inp.interrupted then (vm.bumpTicks.terminate .interrupted, vm.bumpTicks)
  else
    match vm.budget.budget.deadline with
    | none => (.ok, vm.bumpTicks)
    | some d =>
      if vm.bumpTicks.budget.ticks % max vm.budget.budget.checkEvery 1 = 0 ∧ d ≤ inp.now then
        (vm.bumpTicks.terminate .deadlineExceeded, vm.bumpTicks)
      else (.ok, vm.bumpTicks)

/-- `vm.rs` 1101–1131: `tick`. -/
def Vm.tick (vm : Vm F) (inp : Input) : Res F × Vm F :=
  match vm.budget.budget.fuel with
  | none => vm.tickRest inp
  | some n => if n = 0 then (vm.terminate .outOfFuel, vm) else (vm.burn n).tickRest inp

/-- `vm.rs` 634–636: `set_budget`. -/
def Vm.setBudget (vm : Vm F) (b : Budget) : Vm F := { vm with budget := { budget := b, ticks := 0 } }

/-- `vm.rs` 650–661: `reset_budget_to_default`; `now + duration` as an instant. -/
def Vm.resetToDefault (vm : Vm F) (now : Nat) : Vm F :=
  vm.setBudget
    { fuel := vm.options.defaultFuel
      deadline := vm.options.defaultDeadline.map (now + ·)
      checkEvery := vm.options.checkEvery }

/-- `vm.rs` 367–405: `Vm::new`. -/
def Vm.new (o : Options) (now : Nat) : Vm F :=
  ({ options := o
     budget := { budget := { fuel := none, deadline := none, checkEvery := o.checkEvery }, ticks := 0 }
     stack := [] } : Vm F).resetToDefault now

/-- `vm.rs` 1010–1016: `push_frame`. -/
def Vm.pushFrame (vm : Vm F) (f : F) : Res F × Vm F :=
  if vm.options.maxStackDepth ≤ vm.stack.length then (vm.terminate .stackOverflow, vm)
  else (.ok, { vm with stack := vm.stack ++ [f] })

/-- `vm.rs` 1018–1020: `pop_frame` (`Vec::pop`, nothing on an empty stack). -/
def Vm.popFrame (vm : Vm F) : Vm F := { vm with stack := vm.stack.dropLast }

/-- Programs using the API.  `withBudget` is a `push_budget` whose guard lives for `body`;
`withFrame` is an `enter_frame` whose guard, if the frame could be pushed, lives for `body`
(`body` is skipped otherwise). -/
inductive Prog (F : Type) where
  | done
  | tick (inp : Input) (rest : Prog F)
  | setBudget (b : Budget) (rest : Prog F)
  | reset (now : Nat) (rest : Prog F)
  | push (f : F) (rest : Prog F)
  | pop (rest : Prog F)
  | withBudget (b : Budget) (body rest : Prog F)
  | withFrame (f : F) (body rest : Prog F)

/-- `vm.rs` 668–674: `push_budget` replaces the whole budget state. -/
def Vm.pushBudget (vm : Vm F) (b : Budget) : Vm F :=
  { vm with budget := { budget := b, ticks := 0 } }

/-- `vm.rs` 256–262: dropping the `BudgetGuard` that remembers `prev`. -/
def Vm.restoreBudget (vm : Vm F) (prev : BudgetState) : Vm F := { vm with budget := prev }

/-- Running a program: the results in order, and the VM afterwards. -/
def Prog.run : Prog F → Vm F → List (Res F) × Vm F
  | .done, vm => ([], vm)
  | .tick inp rest, vm =>
    ((vm.tick inp).1 :: (rest.run (vm.tick inp).2).1, (rest.run (vm.tick inp).2).2)
  | .setBudget b rest, vm => rest.run (vm.setBudget b)
  | .reset now rest, vm => rest.run (vm.resetToDefault now)
  | .push f rest, vm =>
    ((vm.pushFrame f).1 :: (rest.run (vm.pushFrame f).2).1, (rest.run (vm.pushFrame f).2).2)
  | .pop rest, vm => rest.run vm.popFrame
  | .withBudget b body rest, vm =>
    let inner := body.run (vm.pushBudget b)
    let after := rest.run (inner.2.restoreBudget vm.budget)
    (inner.1 ++ after.1, after.2)
  | .withFrame f body rest, vm =>
    match vm.pushFrame f with
    | (.ok, vm1) =>
      let inner := body.run vm1
      let after := rest.run inner.2.popFrame
      (.ok :: inner.1 ++ after.1, after.2)
    | (r, vm1) =>
      let after := rest.run vm1
      (r :: after.1, after.2)

/-- A sequence of ticks. -/
def ticks : List Input → Prog F
  | [] => .done
  | i :: is => .tick i (ticks is)

end Verif.Budget
