import Verif.Budget.Lemmas
/-!
# C24 (fuel, interrupts, deadlines, nested budgets) and C25 (call depth)
-/

namespace Verif.Budget

variable {F : Type}

/-- The exact outcome of every tick, for every budget, every behaviour of the interrupt flag and every
clock: see `expected`. -/
theorem C24_ticks (vm : Vm F) (inps : List Input) (i : Nat) (inp : Input) (h : inps[i]? = some inp) :
    ((ticks inps).run vm).1[i]? = some (expected vm i inp) :=
  ticks_result inps vm i inp h

/-- With fuel `n`, exactly the first `n` ticks are not refused for lack of fuel, whatever interrupts and
deadlines do. -/
theorem C24_fuel (vm : Vm F) (n : Nat) (hn : vm.budget.budget.fuel = some n) (inps : List Input)
    (i : Nat) (hi : i < inps.length) :
    (∃ tr, ((ticks inps).run vm).1[i]? = some (.terminated .outOfFuel tr)) ↔ n ≤ i := by
  rw [C24_ticks vm inps i inps[i] (List.getElem?_eq_getElem hi)]
  unfold expected
  simp only [hn, fuelFor_some]
  constructor
  · rintro ⟨tr, h⟩
    by_cases hlt : i < n
    · rw [if_neg (by omega)] at h
      revert h
      split
      · intro h; simp at h
      · split <;> · intro h; simp at h
    · omega
  · intro hle
    exact ⟨vm.stack.reverse, by rw [if_pos (by omega)]⟩

/-- Without a fuel limit no tick ever fails for lack of fuel. -/
theorem C24_unlimited (vm : Vm F) (hn : vm.budget.budget.fuel = none) (inps : List Input)
    (i : Nat) (tr : List F) : ((ticks inps).run vm).1[i]? ≠ some (.terminated .outOfFuel tr) := by
  intro h
  have hi : i < inps.length := by
    have := (List.getElem?_eq_some_iff.1 h).1
    rwa [ticks_length] at this
  rw [C24_ticks vm inps i inps[i] (List.getElem?_eq_getElem hi)] at h
  unfold expected at h
  rw [hn, if_neg (fun h => h (fuelFor_none i))] at h
  revert h
  split
  · intro h; simp at h
  · split <;> · intro h; simp at h

/-- While fuel lasts, a tick is refused as interrupted exactly when the flag is set at that tick. -/
theorem C24_interrupt (vm : Vm F) (inps : List Input) (i : Nat) (inp : Input)
    (h : inps[i]? = some inp) (hf : FuelFor vm.budget.budget.fuel i) :
    (∃ tr, ((ticks inps).run vm).1[i]? = some (.terminated .interrupted tr)) ↔
      inp.interrupted = true := by
  rw [C24_ticks vm inps i inp h]
  unfold expected
  rw [if_neg (fun hn => hn hf)]
  constructor
  · rintro ⟨tr, h⟩
    by_cases hi : inp.interrupted = true
    · exact hi
    · rw [if_neg hi] at h
      revert h
      split <;> · intro h; simp at h
  · intro hi
    exact ⟨vm.stack.reverse, by rw [if_pos hi]⟩

/-- A deadline that has passed is noticed within `check_time_every` ticks: among any that many
consecutive ticks at which the clock is at or past the deadline, with fuel and no interrupt, at least
one fails with `DeadlineExceeded`; and no tick does while the clock is before the deadline. -/
theorem C24_deadline (vm : Vm F) (d : Nat) (hd : vm.budget.budget.deadline = some d)
    (hevery : vm.budget.budget.checkEvery < 2 ^ 32) (inps : List Input) (start : Nat)
    (hlen : start + max vm.budget.budget.checkEvery 1 ≤ inps.length)
    (hwin : ∀ i inp, start ≤ i → i < start + max vm.budget.budget.checkEvery 1 →
      inps[i]? = some inp → FuelFor vm.budget.budget.fuel i ∧ inp.interrupted = false ∧ d ≤ inp.now) :
    ∃ i tr, start ≤ i ∧ i < start + max vm.budget.budget.checkEvery 1 ∧
      ((ticks inps).run vm).1[i]? = some (.terminated .deadlineExceeded tr) := by
  obtain ⟨k, hk, hmul⟩ := multiple_in_window (vm.budget.ticks + start + 1)
    (max vm.budget.budget.checkEvery 1) (2 ^ 64) (by omega) (by omega)
  have hi : start + k < inps.length := by omega
  have hget := List.getElem?_eq_getElem hi
  obtain ⟨hf, hint, hnow⟩ := hwin (start + k) inps[start + k] (by omega) (by omega) hget
  refine ⟨start + k, vm.stack.reverse, by omega, by omega, ?_⟩
  rw [C24_ticks vm inps _ _ hget]
  unfold expected
  rw [if_neg (fun hn => hn hf), hint, if_neg (by simp), if_pos]
  refine ⟨⟨d, hd, hnow⟩, ?_⟩
  have : vm.budget.ticks + (start + k) + 1 = vm.budget.ticks + start + 1 + k := by omega
  rw [this]
  exact hmul

theorem C24_no_early_deadline (vm : Vm F) (inps : List Input) (i : Nat) (inp : Input)
    (h : inps[i]? = some inp) (tr : List F)
    (hr : ((ticks inps).run vm).1[i]? = some (.terminated .deadlineExceeded tr)) :
    ∃ d, vm.budget.budget.deadline = some d ∧ d ≤ inp.now := by
  rw [C24_ticks vm inps i inp h] at hr
  unfold expected at hr
  revert hr
  split
  · intro h; simp at h
  · split
    · intro h; simp at h
    · split
      · rename_i hc
        intro _
        obtain ⟨⟨d, hd, hle⟩, _⟩ := hc
        exact ⟨d, hd, hle⟩
      · intro h; simp at h

/-- Nested budgets: whatever a program does under a temporary budget (ticks, replacing or resetting the
budget, further temporary budgets, frames), afterwards the previous budget is back exactly as it was:
fuel left, deadline, interval and position in the interval. -/
theorem C24_nested (vm : Vm F) (b : Budget) (body : Prog F) :
    ((Prog.withBudget b body .done).run vm).2.budget = vm.budget := by
  rw [Prog.run]; rfl

/-- The same for every program that touches the budget only under temporary budgets, and under a
temporary budget ticks see that budget with a fresh counter. -/
theorem C24_nested_programs (p : Prog F) (hp : BudgetScoped p) (vm : Vm F) :
    (p.run vm).2.budget = vm.budget :=
  run_budgetScoped p hp vm

theorem C24_nested_fresh (vm : Vm F) (b : Budget) (inps : List Input) (i : Nat) (inp : Input)
    (h : inps[i]? = some inp) :
    ((Prog.withBudget b (ticks inps) .done).run vm).1[i]? =
      some (expected { vm with budget := { budget := b, ticks := 0 } } i inp) := by
  rw [Prog.run]
  simp only [Prog.run, List.append_nil]
  exact ticks_result inps _ i inp h

/-- C25: a VM created by `Vm::new` never has more frames than `max_stack_depth`, after any program of
pushes, pops, guarded frames, ticks and budget changes. -/
theorem C25_depth (o : Options) (now : Nat) (p : Prog F) :
    (p.run (Vm.new o now)).2.stack.length ≤ o.maxStackDepth :=
  run_depth p (Vm.new o now) (Nat.zero_le _)

/-- A push succeeds exactly when the stack is below the limit; a refused push changes nothing and
reports the frames, innermost first. -/
theorem C25_push (vm : Vm F) (f : F) :
    (vm.stack.length < vm.options.maxStackDepth →
      vm.pushFrame f = (.ok, { vm with stack := vm.stack ++ [f] })) ∧
    (vm.options.maxStackDepth ≤ vm.stack.length →
      vm.pushFrame f = (.terminated .stackOverflow vm.stack.reverse, vm)) := by
  constructor
  · intro h; rw [Vm.pushFrame, if_neg (by omega)]
  · intro h; rw [Vm.pushFrame, if_pos h]; rfl

/-- Programs that enter frames only through guards leave the stack exactly as it was, also when frames
are refused or ticks fail on the way. -/
theorem C25_balanced (p : Prog F) (hp : Scoped p) (vm : Vm F) : (p.run vm).2.stack = vm.stack :=
  run_scoped_stack p hp vm

/-- Recursion of depth `d` succeeds exactly when there is room for `d` frames; otherwise precisely the
frames that fit are entered and the next one overflows, with a trace of all frames entered. -/
theorem C25_recursion (vm : Vm F) (f : F) (d : Nat) :
    ((nest f d).run vm).1 =
      if d ≤ vm.options.maxStackDepth - vm.stack.length then List.replicate d .ok
      else List.replicate (vm.options.maxStackDepth - vm.stack.length) .ok ++
        [.terminated .stackOverflow
          (List.replicate (vm.options.maxStackDepth - vm.stack.length) f ++ vm.stack.reverse)] :=
  nest_run f d vm

/-! ## The hypotheses are met -/

def demoVm : Vm Nat :=
  Vm.new { maxStackDepth := 2, defaultFuel := some 5, defaultDeadline := some 10, checkEvery := 2 } 100

example : ((ticks [⟨false, 100⟩, ⟨true, 101⟩, ⟨false, 109⟩, ⟨false, 110⟩, ⟨false, 111⟩,
    ⟨false, 111⟩]).run demoVm).1 =
    [.ok, .terminated .interrupted [], .ok, .terminated .deadlineExceeded [], .ok,
      .terminated .outOfFuel []] := by decide +kernel

/-- A window in which the deadline has passed (`C24_deadline`). -/
example : ∃ d, demoVm.budget.budget.deadline = some d ∧
    ∀ i (inp : Input), 1 ≤ i → i < 1 + max demoVm.budget.budget.checkEvery 1 →
      ([⟨false, 1⟩, ⟨false, 110⟩, ⟨false, 110⟩] : List Input)[i]? = some inp →
      FuelFor demoVm.budget.budget.fuel i ∧ inp.interrupted = false ∧ d ≤ inp.now := by
  refine ⟨110, rfl, ?_⟩
  intro i inp h1 h2 h3
  have h2' : i < 3 := h2
  rcases (show i = 1 ∨ i = 2 by omega) with rfl | rfl
  · cases h3; exact ⟨by decide, rfl, Nat.le_refl _⟩
  · cases h3; exact ⟨by decide, rfl, Nat.le_refl _⟩

example : ((nest 7 4).run demoVm).1 =
    [.ok, .ok, .terminated .stackOverflow [7, 7]] := by decide +kernel

example : Scoped (.withFrame 1 (.tick ⟨false, 0⟩ (.withFrame 2 .done .done)) .done : Prog Nat) :=
  ⟨⟨trivial, trivial⟩, trivial⟩

example : BudgetScoped (.withBudget ⟨some 1, none, 1⟩ (.tick ⟨false, 0⟩ .done)
    (.withFrame 3 (.withBudget ⟨none, none, 0⟩ (.reset 4 .done) .done) .done) : Prog Nat) :=
  ⟨trivial, trivial⟩

end Verif.Budget
