import Verif.Budget.Model
/-! # What an embedder relies on -/

namespace Verif.Budget

variable {F : Type}

/-- Fuel suffices for the tick number `i` (counting from 0) of a budget that has `fuel` left. -/
def FuelFor (fuel : Option Nat) (i : Nat) : Prop := ∀ n, fuel = some n → i < n

instance (fuel : Option Nat) (i : Nat) : Decidable (FuelFor fuel i) :=
  match fuel with
  | none => isTrue (fun _ h => by cases h)
  | some n => if h : i < n then isTrue (fun m hm => by cases hm; exact h)
      else isFalse (fun hf => h (hf n rfl))

/-- The outcome of tick number `i` of a run of ticks that starts in `vm`: out of fuel exactly when the
budget's fuel is used up; otherwise interrupted exactly when the flag is set at that moment; otherwise
past the deadline exactly when this is a tick at which the clock is read and the clock says so. -/
def expected (vm : Vm F) (i : Nat) (inp : Input) : Res F :=
  if ¬ FuelFor vm.budget.budget.fuel i then .terminated .outOfFuel vm.stack.reverse
  else if inp.interrupted = true then .terminated .interrupted vm.stack.reverse
  else if (∃ d ∈ vm.budget.budget.deadline, d ≤ inp.now) ∧
      ((vm.budget.ticks + i + 1) % 2 ^ 64) % max vm.budget.budget.checkEvery 1 = 0 then
    .terminated .deadlineExceeded vm.stack.reverse
  else .ok

/-- The program pushes and pops frames only through guards. -/
def Scoped : Prog F → Prop
  | .done => True
  | .tick _ rest => Scoped rest
  | .setBudget _ rest => Scoped rest
  | .reset _ rest => Scoped rest
  | .push _ _ => False
  | .pop _ => False
  | .withBudget _ body rest => Scoped body ∧ Scoped rest
  | .withFrame _ body rest => Scoped body ∧ Scoped rest

/-- The program replaces budgets only through guards and performs no ticks outside them. -/
def BudgetScoped : Prog F → Prop
  | .done => True
  | .tick _ _ => False
  | .setBudget _ _ => False
  | .reset _ _ => False
  | .push _ rest => BudgetScoped rest
  | .pop rest => BudgetScoped rest
  | .withBudget _ _ rest => BudgetScoped rest
  | .withFrame _ body rest => BudgetScoped body ∧ BudgetScoped rest

/-- `d` calls nested in each other. -/
def nest (f : F) : Nat → Prog F
  | 0 => .done
  | d + 1 => .withFrame f (nest f d) .done

end Verif.Budget
