import Verif.Budget.Spec
/-! Helper lemmas for ticks, budgets and frames. -/

namespace Verif.Budget

variable {F : Type}

theorem fuelFor_none (i : Nat) : FuelFor none i := fun _ h => by cases h

theorem fuelFor_some (n i : Nat) : FuelFor (some n) i ↔ i < n :=
  ⟨fun h => h n rfl, fun h m hm => by cases hm; exact h⟩

theorem tick_result (vm : Vm F) (inp : Input) : (vm.tick inp).1 = expected vm 0 inp := by
  have hrest : ∀ vm' : Vm F, vm'.stack = vm.stack → vm'.budget.ticks = vm.budget.ticks →
      vm'.budget.budget.deadline = vm.budget.budget.deadline →
      vm'.budget.budget.checkEvery = vm.budget.budget.checkEvery →
      (vm'.tickRest inp).1 =
        if inp.interrupted = true then .terminated .interrupted vm.stack.reverse
        else if (∃ d ∈ vm.budget.budget.deadline, d ≤ inp.now) ∧
            ((vm.budget.ticks + 0 + 1) % 2 ^ 64) % max vm.budget.budget.checkEvery 1 = 0 then
          .terminated .deadlineExceeded vm.stack.reverse
        else .ok := by
    intro vm' h1 h2 h3 h4
    unfold Vm.tickRest
    simp only [Vm.bumpTicks, Vm.terminate, Vm.captureStack, h1, h2, h3, h4, Nat.add_zero]
    cases inp.interrupted with
    | true => simp
    | false =>
      cases vm.budget.budget.deadline with
      | none => simp
      | some d =>
        simp only [Bool.false_eq_true, if_false, Option.mem_def, Option.some.injEq, exists_eq_left']
        by_cases hc : (vm.budget.ticks + 1) % 2 ^ 64 % max vm.budget.budget.checkEvery 1 = 0 ∧
            d ≤ inp.now
        · rw [if_pos hc, if_pos ⟨hc.2, hc.1⟩]
        · rw [if_neg hc, if_neg (fun h => hc ⟨h.2, h.1⟩)]
  unfold Vm.tick expected
  cases hf : vm.budget.budget.fuel with
  | none =>
    rw [if_neg (fun h => h (fuelFor_none 0))]
    exact hrest vm rfl rfl rfl rfl
  | some n =>
    simp only [fuelFor_some]
    by_cases hn : n = 0
    · subst hn
      simp [Vm.terminate, Vm.captureStack]
    · rw [if_neg hn, if_neg (by omega)]
      exact hrest (vm.burn n) rfl rfl rfl rfl

/-- What a tick leaves: the stack, the deadline and the interval unchanged; the fuel one less and the
tick counter one more unless the fuel was used up. -/
theorem tick_state (vm : Vm F) (inp : Input) :
    (vm.tick inp).2.stack = vm.stack ∧ (vm.tick inp).2.options = vm.options ∧
    (vm.tick inp).2.budget.budget.deadline = vm.budget.budget.deadline ∧
    (vm.tick inp).2.budget.budget.checkEvery = vm.budget.budget.checkEvery ∧
    (vm.tick inp).2.budget.budget.fuel = vm.budget.budget.fuel.map (· - 1) ∧
    (FuelFor vm.budget.budget.fuel 0 →
      (vm.tick inp).2.budget.ticks = (vm.budget.ticks + 1) % 2 ^ 64) := by
  have hrest : ∀ vm' : Vm F, (vm'.tickRest inp).2 = vm'.bumpTicks := by
    intro vm'
    unfold Vm.tickRest
    cases inp.interrupted with
    | true => rfl
    | false =>
      cases vm'.budget.budget.deadline with
      | none => rfl
      | some d =>
        simp only [Bool.false_eq_true, if_false]
        split <;> rfl
  unfold Vm.tick
  cases hf : vm.budget.budget.fuel with
  | none =>
    simp only [hrest]
    exact ⟨rfl, rfl, rfl, rfl, hf, fun _ => rfl⟩
  | some n =>
    simp only [fuelFor_some]
    by_cases hn : n = 0
    · subst hn
      simp [hf]
    · simp only [if_neg hn, hrest]
      exact ⟨rfl, rfl, rfl, rfl, rfl, fun _ => rfl⟩

theorem ticks_result : ∀ (inps : List Input) (vm : Vm F) (i : Nat) (inp : Input),
    inps[i]? = some inp → ((ticks inps).run vm).1[i]? = some (expected vm i inp) := by
  intro inps
  induction inps with
  | nil => intro vm i inp h; simp at h
  | cons x inps ih =>
    intro vm i inp h
    rw [ticks, Prog.run]
    cases i with
    | zero =>
      simp only [List.getElem?_cons_zero, Option.some.injEq] at h ⊢
      subst h
      exact tick_result vm x
    | succ i =>
      rw [List.getElem?_cons_succ] at h ⊢
      rw [ih _ i inp h]
      obtain ⟨h1, _, h3, h4, h5, h6⟩ := tick_state vm x
      unfold expected
      rw [h1, h3, h4, h5]
      have hfuel : FuelFor (vm.budget.budget.fuel.map (· - 1)) i ↔
          FuelFor vm.budget.budget.fuel (i + 1) := by
        cases vm.budget.budget.fuel with
        | none => exact ⟨fun _ => fuelFor_none _, fun _ => fuelFor_none _⟩
        | some n => simp only [Option.map_some, fuelFor_some]; omega
      by_cases hf : FuelFor vm.budget.budget.fuel (i + 1)
      · rw [if_neg (fun h => h (hfuel.2 hf)), if_neg (c := ¬ FuelFor vm.budget.budget.fuel (i + 1)) (fun h => h hf)]
        have h0 : FuelFor vm.budget.budget.fuel 0 := by
          cases hq : vm.budget.budget.fuel with
          | none => exact fuelFor_none _
          | some n => rw [hq] at hf; rw [fuelFor_some] at hf ⊢; omega
        rw [h6 h0]
        have : ((vm.budget.ticks + 1) % 2 ^ 64 + i + 1) % 2 ^ 64 =
            (vm.budget.ticks + (i + 1) + 1) % 2 ^ 64 := by omega
        rw [this]
      · rw [if_pos (fun h => hf (hfuel.1 h)), if_pos hf]

theorem ticks_length : ∀ (inps : List Input) (vm : Vm F),
    ((ticks inps).run vm).1.length = inps.length := by
  intro inps
  induction inps with
  | nil => intro vm; rfl
  | cons x inps ih => intro vm; simp [ticks, Prog.run, ih]

/-- Among `m` consecutive values of a counter modulo `M ≥ m`, one is a multiple of `m`. -/
theorem multiple_in_window (t m M : Nat) (hm : 0 < m) (hM : m ≤ M) :
    ∃ i < m, ((t + i) % M) % m = 0 := by
  have hMpos : 0 < M := by omega
  generalize hr : t % M = r
  have hrM : r < M := by rw [← hr]; exact Nat.mod_lt _ hMpos
  have hadd : ∀ i, (t + i) % M = (r + i) % M := by
    intro i; rw [← hr, Nat.mod_add_mod]
  by_cases hw : r + (m - 1) < M
  · refine ⟨(m - r % m) % m, Nat.mod_lt _ hm, ?_⟩
    rw [hadd]
    have hlt : (m - r % m) % m < m := Nat.mod_lt _ hm
    have hin : r + (m - r % m) % m < M := by omega
    rw [Nat.mod_eq_of_lt hin]
    by_cases h0 : r % m = 0
    · rw [h0, Nat.sub_zero, Nat.mod_self, Nat.add_zero, h0]
    · have hlt' : m - r % m < m := by omega
      rw [Nat.mod_eq_of_lt hlt']
      have h1 := Nat.mod_add_div r m
      have h2 : r % m < m := Nat.mod_lt _ hm
      have : r + (m - r % m) = m * (r / m + 1) := by
        rw [Nat.mul_add, Nat.mul_one]; omega
      rw [this, Nat.mul_mod_right]
  · refine ⟨M - r, by omega, ?_⟩
    rw [hadd]
    have : r + (M - r) = M := by omega
    rw [this, Nat.mod_self, Nat.zero_mod]

theorem run_options : ∀ (p : Prog F) (vm : Vm F), (p.run vm).2.options = vm.options := by
  intro p
  induction p with
  | done => intro vm; rfl
  | tick inp rest ih => intro vm; rw [Prog.run]; exact (ih _).trans (tick_state vm inp).2.1
  | setBudget b rest ih => intro vm; rw [Prog.run]; exact ih _
  | reset now rest ih => intro vm; rw [Prog.run]; exact ih _
  | push f rest ih =>
    intro vm
    rw [Prog.run]
    refine (ih _).trans ?_
    unfold Vm.pushFrame
    split <;> rfl
  | pop rest ih => intro vm; rw [Prog.run]; exact ih _
  | withBudget b body rest ihb ihr =>
    intro vm
    rw [Prog.run]
    exact (ihr _).trans (ihb (vm.pushBudget b))
  | withFrame f body rest ihb ihr =>
    intro vm
    rw [Prog.run]
    unfold Vm.pushFrame
    by_cases h : vm.options.maxStackDepth ≤ vm.stack.length
    · rw [if_pos h]
      exact ihr vm
    · rw [if_neg h]
      exact (ihr _).trans (ihb { vm with stack := vm.stack ++ [f] })

theorem run_depth : ∀ (p : Prog F) (vm : Vm F), vm.stack.length ≤ vm.options.maxStackDepth →
    (p.run vm).2.stack.length ≤ vm.options.maxStackDepth := by
  intro p
  induction p with
  | done => intro vm h; exact h
  | tick inp rest ih =>
    intro vm h
    rw [Prog.run]
    obtain ⟨h1, h2, _⟩ := tick_state vm inp
    have := ih (vm.tick inp).2 (by rw [h1, h2]; exact h)
    rwa [h2] at this
  | setBudget b rest ih => intro vm h; rw [Prog.run]; exact ih (vm.setBudget b) h
  | reset now rest ih => intro vm h; rw [Prog.run]; exact ih (vm.resetToDefault now) h
  | push f rest ih =>
    intro vm h
    rw [Prog.run]
    unfold Vm.pushFrame
    by_cases hd : vm.options.maxStackDepth ≤ vm.stack.length
    · rw [if_pos hd]; exact ih vm h
    · rw [if_neg hd]
      exact ih { vm with stack := vm.stack ++ [f] } (by simp; omega)
  | pop rest ih => intro vm h; rw [Prog.run]; exact ih vm.popFrame (by simp [Vm.popFrame]; omega)
  | withBudget b body rest ihb ihr =>
    intro vm h
    rw [Prog.run]
    have h1 := ihb (vm.pushBudget b) h
    have ho := run_options body (vm.pushBudget b)
    have := ihr ((body.run (vm.pushBudget b)).2.restoreBudget vm.budget)
      (by simp only [Vm.restoreBudget]; rw [ho]; exact h1)
    have e : ((body.run (vm.pushBudget b)).2.restoreBudget vm.budget).options = vm.options := ho
    rw [e] at this
    exact this
  | withFrame f body rest ihb ihr =>
    intro vm h
    rw [Prog.run]
    unfold Vm.pushFrame
    by_cases hd : vm.options.maxStackDepth ≤ vm.stack.length
    · rw [if_pos hd]
      exact ihr vm h
    · rw [if_neg hd]
      simp only
      have h1 := ihb { vm with stack := vm.stack ++ [f] } (by simp; omega)
      have ho := run_options body { vm with stack := vm.stack ++ [f] }
      have := ihr (body.run { vm with stack := vm.stack ++ [f] }).2.popFrame
        (by simp only [Vm.popFrame, List.length_dropLast]; rw [ho]; dsimp only at h1 ⊢; omega)
      have e : (body.run { vm with stack := vm.stack ++ [f] }).2.popFrame.options = vm.options := ho
      rw [e] at this
      exact this

theorem run_scoped_stack : ∀ (p : Prog F), Scoped p → ∀ vm : Vm F, (p.run vm).2.stack = vm.stack := by
  intro p
  induction p with
  | done => intro _ vm; rfl
  | tick inp rest ih => intro h vm; rw [Prog.run]; exact (ih h _).trans (tick_state vm inp).1
  | setBudget b rest ih => intro h vm; rw [Prog.run]; exact ih h _
  | reset now rest ih => intro h vm; rw [Prog.run]; exact ih h _
  | push f rest ih => intro h; cases h
  | pop rest ih => intro h; cases h
  | withBudget b body rest ihb ihr =>
    intro h vm
    rw [Prog.run]
    exact (ihr h.2 _).trans (ihb h.1 (vm.pushBudget b))
  | withFrame f body rest ihb ihr =>
    intro h vm
    rw [Prog.run]
    unfold Vm.pushFrame
    by_cases hd : vm.options.maxStackDepth ≤ vm.stack.length
    · rw [if_pos hd]; exact ihr h.2 vm
    · rw [if_neg hd]
      refine (ihr h.2 _).trans ?_
      simp only [Vm.popFrame, ihb h.1, List.dropLast_concat]

theorem run_budgetScoped : ∀ (p : Prog F), BudgetScoped p → ∀ vm : Vm F,
    (p.run vm).2.budget = vm.budget := by
  intro p
  induction p with
  | done => intro _ vm; rfl
  | tick inp rest ih => intro h; cases h
  | setBudget b rest ih => intro h; cases h
  | reset now rest ih => intro h; cases h
  | push f rest ih =>
    intro h vm
    rw [Prog.run]
    refine (ih h _).trans ?_
    unfold Vm.pushFrame
    split <;> rfl
  | pop rest ih => intro h vm; rw [Prog.run]; exact ih h _
  | withBudget b body rest ihb ihr => intro h vm; rw [Prog.run]; exact ihr h _
  | withFrame f body rest ihb ihr =>
    intro h vm
    rw [Prog.run]
    unfold Vm.pushFrame
    by_cases hd : vm.options.maxStackDepth ≤ vm.stack.length
    · rw [if_pos hd]; exact ihr h.2 vm
    · rw [if_neg hd]
      refine (ihr h.2 _).trans ?_
      exact ihb h.1 { vm with stack := vm.stack ++ [f] }

theorem nest_run (f : F) : ∀ (d : Nat) (vm : Vm F),
    (((nest f d).run vm).1 =
      if d ≤ vm.options.maxStackDepth - vm.stack.length then List.replicate d .ok
      else List.replicate (vm.options.maxStackDepth - vm.stack.length) .ok ++
        [.terminated .stackOverflow
          (List.replicate (vm.options.maxStackDepth - vm.stack.length) f ++ vm.stack.reverse)]) := by
  intro d
  induction d with
  | zero => intro vm; simp [nest, Prog.run]
  | succ d ih =>
    intro vm
    rw [nest, Prog.run]
    unfold Vm.pushFrame
    by_cases hd : vm.options.maxStackDepth ≤ vm.stack.length
    · rw [if_pos hd]
      have : vm.options.maxStackDepth - vm.stack.length = 0 := by omega
      simp [this, Vm.terminate, Vm.captureStack, Prog.run]
    · rw [if_neg hd]
      simp only [ih, Prog.run, List.append_nil, List.length_append, List.length_singleton]
      obtain ⟨k, hk⟩ : ∃ k, vm.options.maxStackDepth - vm.stack.length = k + 1 :=
        ⟨vm.options.maxStackDepth - vm.stack.length - 1, by omega⟩
      have hk' : vm.options.maxStackDepth - (vm.stack.length + 1) = k := by omega
      rw [hk, hk']
      by_cases hle : d ≤ k
      · rw [if_pos hle, if_pos (by omega), List.replicate_succ]
      · rw [if_neg hle, if_neg (by omega), List.replicate_succ (n := k), List.cons_append]
        congr 3
        simp only [List.reverse_append, List.reverse_singleton, List.singleton_append]
        rw [List.replicate_succ', List.append_assoc, List.singleton_append]

end Verif.Budget
