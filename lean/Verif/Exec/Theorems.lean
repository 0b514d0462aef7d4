import Verif.Exec.Complete
/-!
# C78: statements do what ECMA-262 says

`AsEcma` is the property: whatever the interpreter returns for a list of statements is what ECMA-262 says, with the
environment restored, and whatever ECMA-262 says the interpreter returns, given fuel for its loops.  `C78_partial`
proves it for statements that are `Plain` — with equal completion values if there is no `if`, and otherwise up to the
values of completions that are no `return` and no `throw`, which only a script as a whole returns.  So functions return
and throw exactly what they should (`C78_function_partial`).  The programs that are not `Plain` are there because the
interpreter does something else: each of the theorems `C78_…_violated` has one.
-/

namespace Verif.Exec

section
variable {X P D V E I W : Type}

/-- The interpreter does for the statements what ECMA-262 says. -/
def AsEcma (H : Host X P D V E I W) (ss : Stmts X P D) (same : Completion V → Completion V → Prop) : Prop :=
  ∀ e w,
    (∀ n r σ', evalL H n ss none ⟨e, w⟩ = some (r, σ') → r ≠ .fatal →
      σ'.env = e ∧ ∃ c c', r = .ok c ∧ Ecma H (.list ss none) e w c' σ'.world ∧ same c c') ∧
    (∀ c' w', Ecma H (.list ss none) e w c' w' →
      ∃ N c, same c c' ∧ ∀ n, N ≤ n → evalL H n ss none ⟨e, w⟩ = some (.ok c, ⟨e, w'⟩))

theorem asEcma_of (H : Host X P D V E I W) (ss : Stmts X P D) (q : Bool) (hp : ss.Plain H)
    (hq : q = true → ss.noIf = true) : AsEcma H ss (AQ q) := by
  intro e w
  constructor
  · intro n r σ' h hr
    obtain ⟨hm, ht⟩ := evalL_meets H q n ss hp hq none none fun _ => rfl
    obtain ⟨he, hj⟩ := hm _ _ _ _ h
    refine ⟨he, ?_⟩
    cases r with
    | ok c =>
      obtain ⟨c', hj, ha⟩ := hj
      exact ⟨c, c', rfl, hj, ha⟩
    | throw t => exact absurd h (ht _ _ _)
    | fatal => exact absurd rfl hr
  · intro c' w' h
    obtain ⟨N, c, ha, hN⟩ := runs H q h hp hq none fun _ => rfl
    exact ⟨N, c, ha, fun n hn => hN n hn n hn⟩

/-- **C78**, for statements that are `Plain`.  Missing: the others, see `C78_finally_violated` and so on, and values of
completions in the presence of `if`, see `C78_if_value_violated`. -/
theorem C78_partial (H : Host X P D V E I W) (ss : Stmts X P D) (hp : ss.Plain H) :
    AsEcma H ss Completion.Alike ∧ (ss.noIf = true → AsEcma H ss (· = ·)) := by
  constructor
  · intro e w
    obtain ⟨h1, h2⟩ := asEcma_of H ss false hp (by simp) e w
    constructor
    · intro n r σ' h hr
      obtain ⟨he, c, c', hc, hj, ha⟩ := h1 n r σ' h hr
      exact ⟨he, c, c', hc, hj, ha.1⟩
    · intro c' w' h
      obtain ⟨N, c, ha, hN⟩ := h2 c' w' h
      exact ⟨N, c, ha.1, hN⟩
  · intro hn e w
    obtain ⟨h1, h2⟩ := asEcma_of H ss true hp (fun _ => hn) e w
    constructor
    · intro n r σ' h hr
      obtain ⟨he, c, c', hc, hj, ha⟩ := h1 n r σ' h hr
      exact ⟨he, c, c', hc, hj, ha.2 rfl⟩
    · intro c' w' h
      obtain ⟨N, c, ha, hN⟩ := h2 c' w' h
      exact ⟨N, c, ha.2 rfl, hN⟩

/-- What a call of a function with this body comes to in ECMA-262 (10.2.1.4, 15.2.3): a value or a thrown value. -/
def EcmaCall (H : Host X P D V E I W) (ss : Stmts X P D) (e : E) (w : W) (o : Out V V) (w' : W) : Prop :=
  ∃ c, Ecma H (.list ss none) e w c w' ∧
    ((∃ v, c = .normal v ∧ o = .ok H.undef) ∨ (∃ v, c = .ret v ∧ o = .ok v) ∨ ∃ v, c = .throw v ∧ o = .throw v)

/-- What a script with this body comes to in ECMA-262 (16.1.6): its value or a thrown value. -/
def EcmaScript (H : Host X P D V E I W) (ss : Stmts X P D) (e : E) (w : W) (o : Out V V) (w' : W) : Prop :=
  ∃ c, Ecma H (.list ss none) e w c w' ∧
    ((∃ v, c = .normal v ∧ o = .ok (v.getD H.undef)) ∨ ∃ v, c = .throw v ∧ o = .throw v)

/-- **C78** for functions: calls return and throw what they do in ECMA-262. -/
theorem C78_function_partial (H : Host X P D V E I W) (ss : Stmts X P D) (hp : ss.Plain H) (e : E) (w : W)
    (o : Out V V) (ho : o ≠ .fatal) (w' : W) :
    (∃ n, runFunction H n ss ⟨e, w⟩ = some (o, ⟨e, w'⟩)) ↔ EcmaCall H ss e w o w' := by
  obtain ⟨h1, h2⟩ := asEcma_of H ss false hp (by simp) e w
  constructor
  · rintro ⟨n, h⟩
    rw [runFunction] at h
    replace h := bindE_inv h
    rcases h with ⟨c, ⟨e2, w2⟩, hm, h⟩ | ⟨t, hm, rfl⟩ | ⟨hm, rfl⟩
    · obtain ⟨_, c1, c', h0, hj, ha⟩ := h1 n _ _ hm (by simp)
      cases h0
      cases c with
      | normal v =>
        obtain ⟨rfl, h⟩ := done_inv h
        cases h
        obtain ⟨v', rfl, _⟩ := ha.normal_eq'
        exact ⟨_, hj, .inl ⟨v', rfl, rfl⟩⟩
      | ret v =>
        obtain ⟨rfl, h⟩ := done_inv h
        cases h
        have := ha.1
        cases c' <;> simp [Completion.Alike] at this
        subst this
        exact ⟨_, hj, .inr (.inl ⟨_, rfl, rfl⟩)⟩
      | throw v =>
        simp only [Option.some.injEq, Prod.mk.injEq] at h
        obtain ⟨rfl, h⟩ := h
        cases h
        rw [ha.throw_eq'] at hj
        exact ⟨_, hj, .inr (.inr ⟨_, rfl, rfl⟩)⟩
      | brk l v =>
        simp only [Option.some.injEq, Prod.mk.injEq] at h
        exact absurd h.1.symm ho
      | cont l v =>
        simp only [Option.some.injEq, Prod.mk.injEq] at h
        exact absurd h.1.symm ho
    · obtain ⟨_, c1, c', h0, _⟩ := h1 n _ _ hm (by simp)
      cases h0
    · exact absurd rfl ho
  · rintro ⟨c', hj, hc⟩
    obtain ⟨N, c, ha, hN⟩ := h2 _ _ hj
    refine ⟨N, ?_⟩
    rw [runFunction, bindE_ok (hN N (Nat.le_refl _))]
    rcases hc with ⟨v, rfl, rfl⟩ | ⟨v, rfl, rfl⟩ | ⟨v, rfl, rfl⟩
    · obtain ⟨v', rfl, _⟩ := ha.normal_eq
      rfl
    · have := ha.1
      cases c <;> simp [Completion.Alike] at this
      subst this
      rfl
    · rw [ha.throw_eq]

/-- **C78** for scripts without `if`: they have the value they have in ECMA-262. -/
theorem C78_script_partial (H : Host X P D V E I W) (ss : Stmts X P D) (hp : ss.Plain H) (hn : ss.noIf = true) (e : E)
    (w : W) (o : Out V V) (ho : o ≠ .fatal) (w' : W) :
    (∃ n, runScript H n ss ⟨e, w⟩ = some (o, ⟨e, w'⟩)) ↔ EcmaScript H ss e w o w' := by
  obtain ⟨h1, h2⟩ := (C78_partial H ss hp).2 hn e w
  constructor
  · rintro ⟨n, h⟩
    rw [runScript] at h
    replace h := bindE_inv h
    rcases h with ⟨c, ⟨e2, w2⟩, hm, h⟩ | ⟨t, hm, rfl⟩ | ⟨hm, rfl⟩
    · obtain ⟨_, c1, c', h0, hj, rfl⟩ := h1 n _ _ hm (by simp)
      cases h0
      cases c with
      | normal v =>
        obtain ⟨rfl, h⟩ := done_inv h
        cases h
        exact ⟨_, hj, .inl ⟨v, rfl, rfl⟩⟩
      | throw v =>
        simp only [Option.some.injEq, Prod.mk.injEq] at h
        obtain ⟨rfl, h⟩ := h
        cases h
        exact ⟨_, hj, .inr ⟨_, rfl, rfl⟩⟩
      | ret v =>
        simp only [Option.some.injEq, Prod.mk.injEq] at h
        exact absurd h.1.symm ho
      | brk l v =>
        simp only [Option.some.injEq, Prod.mk.injEq] at h
        exact absurd h.1.symm ho
      | cont l v =>
        simp only [Option.some.injEq, Prod.mk.injEq] at h
        exact absurd h.1.symm ho
    · obtain ⟨_, c1, c', h0, _⟩ := h1 n _ _ hm (by simp)
      cases h0
    · exact absurd rfl ho
  · rintro ⟨c', hj, hc⟩
    obtain ⟨N, c, rfl, hN⟩ := h2 _ _ hj
    refine ⟨N, ?_⟩
    rw [runScript, bindE_ok (hN N (Nat.le_refl _))]
    rcases hc with ⟨v, rfl, rfl⟩ | ⟨v, rfl, rfl⟩ <;> rfl

end

/-! ## A small host -/

namespace Toy

/-- Expressions: numbers, `undefined` is 0 and the others are true; a `throw`; a call that leaves a number in the
log; a variable; whether the log is shorter than two. -/
inductive Ex where
  | num (n : Nat)
  | fail (n : Nat)
  | say (n : Nat)
  | var_ (x : Nat)
  | short

/-- The bindings of the environments, each initialised or not, and the log. -/
structure World where
  next : Nat := 1
  vars : List ((Nat × Nat) × Option Nat) := []
  log : List Nat := []
deriving DecidableEq

def World.get (w : World) (e x : Nat) : Option (Option Nat) := w.vars.lookup (e, x)

def World.set (w : World) (e x : Nat) (v : Option Nat) : World := { w with vars := ((e, x), v) :: w.vars }

def World.fresh (w : World) : World := { w with next := w.next + 1 }

def World.say (w : World) (n : Nat) : World := { w with log := w.log ++ [n] }

/-- Patterns are variables, and 99 one that cannot be matched.  Iterators are what they still give; with `calm` they
cannot fail; otherwise that of 2 throws when it is closed, that of 3 when it is asked for a value. -/
def host (calm : Bool) : Host Ex Nat (List Nat) Nat Nat (Nat × List Nat) World where
  undef := 0
  nullish v := v == 0
  truthy v _ := v != 0
  equal a b _ := a == b
  expr x e w :=
    match x with
    | .num n => (.ok n, w)
    | .fail n => (.throw n, w)
    | .say n => (.ok n, w.say n)
    | .var_ x =>
      match w.get e x with
      | some (some v) => (.ok v, w)
      | _ => (.throw 88, w)
    | .short => (.ok (if w.log.length < 2 then 1 else 0), w)
  exprTdz p x e w :=
    match x with
    | .num n => (.ok n, w)
    | .fail n => (.throw n, w)
    | .say n => (.ok n, w.say n)
    | .var_ x =>
      if x = p then (.throw 88, w)
      else
        match w.get e x with
        | some (some v) => (.ok v, w)
        | _ => (.throw 88, w)
    | .short => (.ok (if w.log.length < 2 then 1 else 0), w)
  scope d e w :=
    match d with
    | [] => some (e, w)
    | d => some (w.next, d.foldl (fun u x => u.set w.next x none) w.fresh)
  bind k p v e w :=
    if p = 99 then (.throw 77, w)
    else
      match k with
      | .let_ | .const_ =>
        match w.get e p with
        | some (some _) => (.fatal, w)
        | _ => (.ok (), w.set e p (some v))
      | _ => (.ok (), w.set e p (some v))
  bindNew _ p v _ w := if p = 99 then (.throw 77, w) else (.ok w.next, w.fresh.set w.next p (some v))
  object v w := (.ok v, w)
  keys v w := (.ok [v], w)
  iter v w := (.ok (v, [1, 2]), w)
  step i w :=
    if !calm && i.1 == 3 then (.throw 66, w)
    else
      match i.2 with
      | [] => (.ok (none, i), w)
      | a :: as => (.ok (some a, (i.1, as)), w)
  close i w := if !calm && i.1 == 2 then (.throw 55, w.say 100) else (.ok (), w.say 100)

abbrev S := Stmt Ex Nat (List Nat)

def start : World := {}

/-- `l: for (x of 1) { try { switch (x) { case 1: continue l; default: say(7) } } finally { say(9) } }` -/
def good : Stmts Ex Nat (List Nat) := ofList [
  .label 0 (.forOf (.assign 5) (.num 1) [] (ofList [
    .try_ [] (ofList [
      .switchDefault (.var_ 5) [] (.cons (.num 1) (ofList [.continue_ (some 0)]) .nil)
        (ofList [.expr (.say 7)]) .nil])
      .none (.some [] (ofList [.expr (.say 9)]))]))]

theorem calm_closes : ClosesQuietly (host true) := by
  refine ⟨fun i w => by simp [host], fun i w t w' h => ?_⟩
  simp only [host, Bool.not_true, Bool.false_and, Bool.false_eq_true, if_false] at h
  split at h <;> simp at h

theorem bare (b : Bool) : Bare (host b) [] := fun _ _ => rfl

theorem good_plain : good.Plain (host true) := by
  simp only [good, ofList, Stmts.Plain, Stmt.Plain, Handler.Plain, Final.Plain, Cases.Plain, CatchSafe, and_true,
    true_and]
  exact ⟨bare _, rfl, calm_closes⟩

def after : World := { start with vars := [((0, 5), some 2), ((0, 5), some 1)], log := [9, 7, 9] }

/-- The program `good` is `Plain` and has no `if`: both parts of `C78_partial` apply.  It leaves 9, 7, 9 in the log. -/
example : AsEcma (host true) good (· = ·) ∧ Ecma (host true) (.list good none) 0 start (.normal (some 7)) after := by
  have h := (C78_partial (host true) good good_plain).2 (by decide +kernel)
  refine ⟨h, ?_⟩
  obtain ⟨_, c, c', h0, hj, rfl⟩ := (h 0 start).1 5 (.ok (.normal (some 7))) ⟨0, after⟩ (by decide +kernel) (by simp)
  cases h0
  exact hj

/-- Its value as a script, in the interpreter and so in ECMA-262. -/
example : EcmaScript (host true) good 0 start (.ok 7) after :=
  (C78_script_partial (host true) good good_plain (by decide +kernel) 0 start (.ok 7) (by simp) _).1
    ⟨5, by decide +kernel⟩

/-- As the body of a function it returns `undefined`. -/
example : EcmaCall (host true) good 0 start (.ok 0) after :=
  (C78_function_partial (host true) good good_plain 0 start (.ok 0) (by simp) _).1 ⟨5, by decide +kernel⟩

/-! ## Where the interpreter differs -/

/-- `1; if (1) {}` -/
def ifValue : Stmts Ex Nat (List Nat) := ofList [.expr (.num 1), .ifThen (.num 1) (.block [] .nil)]

/-- The value of a script that ends with an `if` without value is `undefined` in ECMA-262; the interpreter's is that of
the statement before. -/
theorem C78_if_value_violated :
    EcmaScript (host true) ifValue 0 start (.ok 0) start ∧
      ∀ n, runScript (host true) n ifValue ⟨0, start⟩ = some (.ok 1, ⟨0, start⟩) :=
  ⟨⟨.normal (some 0), .cons (c := .normal (some 1)) (.expr rfl) rfl
      (.cons (.ifTrue rfl rfl (.block (.inner rfl .nil))) rfl .nil), .inl ⟨_, rfl, rfl⟩⟩, fun _ => rfl⟩

/-- `try { throw 1 } catch (<fails>) {} finally { say(9) }` -/
def finallyProg : Stmts Ex Nat (List Nat) := ofList [
  .try_ [] (ofList [.throw (.num 1)]) (.param 99 .nil) (.some [] (ofList [.expr (.say 9)]))]

/-- If the parameter of `catch` cannot be bound, `finally` is run in ECMA-262; the interpreter skips it. -/
theorem C78_finally_violated :
    Ecma (host true) (.list finallyProg none) 0 start (.throw 77) (start.say 9) ∧
      ∀ n, evalL (host true) n finallyProg none ⟨0, start⟩ = some (.ok (.throw 77), ⟨0, start⟩) :=
  ⟨.stop (c := .throw 77) (.try_ (b := .throw 1) (c := .throw 77) (r := .throw 77)
      (.inner rfl (.stop (c := .throw 1) (.throw rfl) (by simp [Completion.Abrupt])))
      (.catchBind rfl)
      (.finalNormal (v := some 9) (.inner rfl (.cons (c := .normal (some 9)) (v := some 9) (.expr rfl) rfl .nil))))
      (by simp [Completion.Abrupt]), fun _ => rfl⟩

/-- `for (x of 2) break;`, where closing the iterator throws -/
def closeProg : Stmts Ex Nat (List Nat) := ofList [.forOf (.assign 5) (.num 2) [] (ofList [.break_ none])]

/-- An error from closing the iterator when the loop is left is thrown in ECMA-262; the interpreter ignores it. -/
theorem C78_close_error_violated :
    ∃ w', Ecma (host false) (.list closeProg none) 0 start (.throw 55) w' ∧
      ∀ n, evalL (host false) (n + 1) closeProg none ⟨0, start⟩ = some (.ok (.normal (some 0)), ⟨0, w'⟩) :=
  ⟨_, .stop (c := .throw 55) (.ofStmt (c := .throw 55) rfl rfl
      (.ofCloseThrow (c := .brk none none) (e1 := 0) rfl rfl
        (.inner rfl (.stop (c := .brk none none) .break_ (by simp [Completion.Abrupt])))
        (by simp [Completion.Continues]) (by simp) rfl)) (by simp [Completion.Abrupt]), fun _ => rfl⟩

/-- `for (x of 3) {}`, where asking for a value throws -/
def stepProg : Stmts Ex Nat (List Nat) := ofList [.forOf (.assign 5) (.num 3) [] .nil]

/-- An iterator that fails to give a value is not closed in ECMA-262; the interpreter closes it. -/
theorem C78_step_close_violated :
    Ecma (host false) (.list stepProg none) 0 start (.throw 66) start ∧
      ∀ n, evalL (host false) (n + 1) stepProg none ⟨0, start⟩ = some (.ok (.throw 66), ⟨0, start.say 100⟩) :=
  ⟨.stop (c := .throw 66) (.ofStmt (c := .throw 66) rfl rfl (.ofStep rfl)) (by simp [Completion.Abrupt]),
    fun _ => rfl⟩

/-- `for (let x of 1) {}` -/
def ofLetProg : Stmts Ex Nat (List Nat) := ofList [.forOf (.let_ 5) (.num 1) [] .nil]

/-- The variable of `for (let x of …)` is a new one in each iteration in ECMA-262; the interpreter declares it anew
in the environment around the loop, and stops in the second iteration with an error that cannot be caught. -/
theorem C78_of_let_violated :
    (∃ w', Ecma (host true) (.list ofLetProg none) 0 start (.normal (some 0)) w') ∧
      ∀ n, ∃ σ', evalL (host true) (n + 2) ofLetProg none ⟨0, start⟩ = some (.fatal, σ') :=
  ⟨⟨_, .cons (c := .normal (some 0)) (.ofStmt (c := .normal (some 0)) rfl rfl
      (.ofNext (e1 := 1) (c := .normal none) rfl rfl (.inner rfl .nil) trivial
        (.ofNext (e1 := 2) (c := .normal none) rfl rfl (.inner rfl .nil) trivial (.ofEnd rfl)))) rfl .nil⟩,
    fun _ => ⟨_, rfl⟩⟩

/-- `for (; short; say(1)) { let y = 1 }` -/
def bodyLetProg : Stmts Ex Nat (List Nat) := ofList [
  .for_ .none (some .short) (some (.say 1)) [5] (ofList [.decl .let_ [⟨5, some (.num 1)⟩]])]

/-- The body of a `for` loop is a block with declarations of its own in ECMA-262; the interpreter declares its
variables in the environment around the loop, and stops in the second iteration with an error that cannot be
caught. -/
theorem C78_body_let_violated :
    (∃ w', Ecma (host true) (.list bodyLetProg none) 0 start (.normal (some 0)) w') ∧
      ∀ n, ∃ σ', evalL (host true) (n + 2) bodyLetProg none ⟨0, start⟩ = some (.fatal, σ') :=
  ⟨⟨_, .cons (c := .normal (some 0)) (.forStmt (c := .normal (some 0)) .initNone
      (.forNext (c := .normal none) ⟨1, rfl, rfl⟩
        (.inner rfl (.cons (c := .normal none) (.decl (.declCons rfl rfl .declNil)) rfl .nil)) trivial
        (.postExpr rfl)
        (.forNext (c := .normal none) ⟨1, rfl, rfl⟩
          (.inner rfl (.cons (c := .normal none) (.decl (.declCons rfl rfl .declNil)) rfl .nil)) trivial
          (.postExpr rfl) (.forEnd ⟨0, rfl, rfl⟩)))) rfl .nil⟩,
    fun _ => ⟨_, rfl⟩⟩

/-- `for (let x in x) {}` -/
def headProg : Stmts Ex Nat (List Nat) := ofList [.forIn (.let_ 5) (.var_ 5) [] .nil]

/-- In `for (let x in x)` the second `x` is not initialised in ECMA-262; in the interpreter it is the one outside. -/
theorem C78_head_violated :
    Ecma (host true) (.list headProg none) 0 (start.set 0 5 (some 1)) (.throw 88) (start.set 0 5 (some 1)) ∧
      ∀ n, ∃ σ', evalL (host true) n headProg none ⟨0, start.set 0 5 (some 1)⟩ = some (.ok (.normal (some 0)), σ') :=
  ⟨.stop (c := .throw 88) (.inThrow rfl) (by simp [Completion.Abrupt]), fun _ => ⟨_, rfl⟩⟩

end Toy

end Verif.Exec
