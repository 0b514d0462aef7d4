import Verif.Stmts.Top

/-!
# C87: the minifier's passes over statements keep what a program does

`SameBody a b` says that two bodies are set up alike and run alike on every machine: whatever
expressions, declarations, scopes and iterators do.
-/

namespace Verif.Stmts

/-- **C87**, the part that holds: on a body whose directives are all in front, which has no function
as the branch of an `if`, the body of a loop or under a label there, and whose imports and exports
the control flow pass does not get to see, any sequence of the passes gives a body that does the
same. What the binder says about the scopes does not matter. -/
theorem C87_partial (inherited : Bool) (passes : List Pass) (body : List Stmt)
    (h : Fair inherited body) (hu : (∃ on, Pass.flow on ∈ passes) → Unlinked body) :
    SameBody inherited body (passes.foldl (Pass.run inherited) body) := by
  induction passes generalizing body with
  | nil => exact fun _ _ _ _ _ _ => Iff.rfl
  | cons p rest ih =>
    obtain ⟨h1, h2, h3⟩ := pass_fair h p
      (fun ⟨on, hp⟩ => hu ⟨on, by rw [hp]; exact List.mem_cons_self ..⟩)
    have h4 := ih (p.run inherited body) h2
      (fun ⟨on, hp⟩ => h3 (hu ⟨on, List.mem_cons_of_mem _ hp⟩))
    intro σ V m s k s'
    rw [h1 σ V m s k s']
    exact h4 σ V m s k s'

/-- The passes also keep the body one that the claim is about. -/
theorem C87_stays_fair (inherited : Bool) (p : Pass) (body : List Stmt) (h : Fair inherited body)
    (hu : (∃ on, p = Pass.flow on) → Unlinked body) : Fair inherited (p.run inherited body) :=
  (pass_fair h p hu).2.1

/-- The control flow pass goes down to every statement: the bound on the depth in its model cuts
nothing off. -/
theorem C87_flow_whole (on : List Stmt → Site) (inherited : Bool) (body : List Stmt) (n : Nat)
    (hn : sizes body ≤ n) : flowList on n true body = (Pass.flow on).run inherited body :=
  flow_fuel on true body n hn

/-! ## A body that meets the hypotheses -/

/-- `"use strict"; if (0) { var a = e1 } else e2; ;{} let x = e3; let y = e4;
if (e5) { return e6 } else { e7 } return; var z = e8; e9` -/
def sample : List Stmt :=
  [Directive "use strict",
   .ifElse (.lit false (.num .zero)) (.block [.decl false .var [⟨.id "a", some (.other 1)⟩]])
     (.expr (.other 2)),
   .empty, .block [],
   .decl false .lets [⟨.id "x", some (.other 3)⟩],
   .decl false .lets [⟨.id "y", some (.other 4)⟩],
   .ifElse (.other 5) (.block [.ret (some (.other 6))]) (.block [.expr (.other 7)]),
   .ret none,
   .decl false .var [⟨.id "z", some (.other 8)⟩],
   .expr (.other 9)]

theorem sample_fair : Fair false sample := by
  refine ⟨true, [Directive "use strict"], sample.tail, ?_, rfl, ?_, ?_⟩
  · simp only [true_iff]
    exact Or.inr ⟨[], _, rfl, by simp⟩
  · intro st hst; exact ⟨_, List.mem_singleton.1 hst⟩
  · intro st hst
    simp [sample] at hst
    rcases hst with rfl | rfl | rfl | rfl | rfl | rfl | rfl | rfl | rfl <;>
      exact Or.inl (by simp [ok, oks, lex])

theorem sample_unlinked : Unlinked sample := by
  intro st hst
  simp [sample, Directive] at hst
  rcases hst with rfl | rfl | rfl | rfl | rfl | rfl | rfl | rfl | rfl | rfl <;> simp [Linked]

/-- All four passes on it: `"use strict"; var a; e2; let x = e3, y = e4; if (e5) { return e6 } e7;
return; var z`. -/
example :
    [Pass.stmts, .cleanup, .combine, .flow fun _ => .bound].foldl (Pass.run false) sample =
      [Directive "use strict", .decl false .var [⟨.id "a", none⟩], .expr (.other 2),
       .decl false .lets [⟨.id "x", some (.other 3)⟩, ⟨.id "y", some (.other 4)⟩],
       .ifThen (.other 5) (.block [.ret (some (.other 6))]), .expr (.other 7),
       .ret none, .decl false .var [⟨.id "z", none⟩]] := by
  rfl

example : SameBody false sample
    ([Pass.stmts, .cleanup, .combine, .flow fun _ => .bound].foldl (Pass.run false) sample) :=
  C87_partial false _ sample sample_fair (fun _ => sample_unlinked)

/-! ## Where the claim fails

A machine that throws when it is set up from a header with some property, and otherwise does
nothing. -/

/-- It holds nothing, and has the values `some true`, `some false` and `none`, which it throws. -/
def probe (P : Header → Prop) : Machine Unit (Option Bool) where
  eval := fun _ _ _ r => r = .val (some true)
  lit := fun l => some l.toBoolean
  truthy := fun v => v == some true
  truthy_lit := by intro l; cases l.toBoolean <;> rfl
  same := fun a b => a == b
  other := fun _ _ _ k => k = .normal
  declare := fun _ _ _ _ r => r = none
  func := fun _ _ _ _ _ => True
  cls := fun _ _ _ _ r => r = none
  item := fun _ _ _ r => r = none
  enter := fun _ _ _ => True
  leave := fun _ _ _ k _ k' => k' = k
  leave_abrupt := by rintro _ _ _ _ _ _ rfl h; exact h
  forEnter := fun _ _ _ => True
  forCopy := fun _ _ _ => True
  forLeave := fun _ _ _ k _ k' => k' = k
  eachOpen := fun _ _ _ _ _ r => r = .val none
  eachStep := fun _ _ _ _ _ r => r = .done
  eachLeave := fun _ _ _ _ _ k _ k' => k' = k
  withEnter := fun _ _ _ r => r = none
  withLeave := fun _ _ k _ k' => k' = k
  catchEnter := fun _ _ _ _ r => r = none
  catchLeave := fun _ _ _ k _ k' => k' = k
  start := fun h _ _ r => (P h ∧ r = some none) ∨ (¬ P h ∧ r = none)

theorem differ {inherited : Bool} {a b : List Stmt} (P : Header → Prop)
    (ha : ¬ P (header inherited a)) (hb : P (header inherited b)) {k : Compl (Option Bool)}
    (hr : Run (probe P) (.list a) () k ()) (hk : k ≠ .throw none) : ¬ SameBody inherited a b := by
  intro h
  have h1 : RunBody (probe P) inherited a () k () := Or.inr ⟨(), Or.inr ⟨ha, rfl⟩, hr⟩
  rcases (h _ _ (probe P) () k ()).1 h1 with ⟨v, h2, rfl⟩ | ⟨s0, h2, _⟩
  · rcases h2 with ⟨_, h2⟩ | ⟨h2, _⟩
    · cases h2; exact hk rfl
    · exact h2 hb
  · rcases h2 with ⟨_, h2⟩ | ⟨h2, _⟩
    · cases h2
    · exact h2 hb

/-- `if (true) function f(){}` becomes `function f(){}`, a declaration of the body. -/
theorem C87_function_violated :
    ¬ SameBody false [.ifThen (.lit false (.bool true)) (.func "f" 0 true)]
      (Pass.stmts.run false [.ifThen (.lit false (.bool true)) (.func "f" 0 true)]) := by
  have hp : Pass.stmts.run false [.ifThen (.lit false (.bool true)) (.func "f" 0 true)] =
      [.func "f" 0 true] := rfl
  rw [hp]
  refine differ (fun h => h.lex ≠ []) (by simp [header, lex]) (by simp [header, lex])
    (k := .normal) (run_one.2 (.ifTrue (v := some true) .lit rfl ?_)) (by simp)
  have hf : Run (probe fun h => h.lex ≠ []) (.stmt [] (.func "f" 0 true)) () .normal () :=
    .func trivial
  exact .block (s0 := ()) (Or.inr ⟨by simp [lex], trivial⟩) (run_one.2 hf)
    (Or.inr ⟨by simp [lex], rfl⟩)

theorem not_strict {st : Stmt} {rest : List Stmt} (h : ∀ s, st ≠ Directive s) :
    ¬ UsesStrict (st :: rest) := by
  rintro ⟨p, r, h1, h2⟩
  cases p with
  | nil => simp at h1; exact h _ h1.1
  | cons q p =>
    simp at h1
    obtain ⟨s, hs⟩ := h2 q (by simp)
    exact h s (h1.1.trans hs)

theorem is_strict {rest : List Stmt} : UsesStrict (Directive "use strict" :: rest) :=
  ⟨[], rest, rfl, by simp⟩

/-- `;"use strict"` is no directive, but clean-up makes it one: sloppy code becomes strict. -/
theorem C87_directive_violated :
    ¬ SameBody false [.empty, Directive "use strict"]
      (Pass.cleanup.run false [.empty, Directive "use strict"]) := by
  have hp : Pass.cleanup.run false [.empty, Directive "use strict"] = [Directive "use strict"] := rfl
  rw [hp]
  refine differ (fun h => h.strict) ?_ (Or.inr is_strict) (k := .normal)
    (.cons .empty (run_one.2 (.expr .lit))) (by simp)
  simp only [header, Bool.false_eq_true, false_or]
  exact not_strict (by simp [Directive])

/-- So does the rewriting of `if (1) "use strict"`. -/
theorem C87_directive_if_violated :
    ¬ SameBody false [.ifThen (.lit false (.bool true)) (Directive "use strict")]
      (Pass.stmts.run false [.ifThen (.lit false (.bool true)) (Directive "use strict")]) := by
  have hp : Pass.stmts.run false [.ifThen (.lit false (.bool true)) (Directive "use strict")] =
      [Directive "use strict"] := rfl
  rw [hp]
  refine differ (fun h => h.strict) ?_ (Or.inr is_strict) (k := .normal)
    (run_one.2 (.ifTrue (v := some true) .lit rfl (.expr .lit))) (by simp)
  simp only [header, Bool.false_eq_true, false_or]
  exact not_strict (by simp [Directive])

/-- In a module, an import or export after a `throw` is dropped. -/
theorem C87_import_violated :
    ¬ SameBody true [.throw (.other 0), .item 0]
      ((Pass.flow fun _ => .bound).run true [.throw (.other 0), .item 0]) := by
  have hp : (Pass.flow fun _ => .bound).run true [.throw (.other 0), .item 0] =
      [.throw (.other 0)] := rfl
  rw [hp]
  exact differ (fun h => h.links = []) (by simp [header, links]) (by simp [header, links])
    (k := .throw (some true)) (.stop (.throw (Or.inl (.other rfl))) (by simp)) (by simp)

/-- There, `export var x` becomes `var x`. -/
theorem C87_export_violated :
    ¬ SameBody true [.throw (.other 0), .decl true .var [⟨.id "x", none⟩]]
      ((Pass.flow fun _ => .bound).run true [.throw (.other 0), .decl true .var [⟨.id "x", none⟩]]) := by
  have hp : (Pass.flow fun _ => .bound).run true
      [.throw (.other 0), .decl true .var [⟨.id "x", none⟩]] =
      [.throw (.other 0), .decl false .var [⟨.id "x", none⟩]] := rfl
  rw [hp]
  exact differ (fun h => h.links = []) (by simp [header, links, boundDecls, bound])
    (by simp [header, links]) (k := .throw (some true))
    (.stop (.throw (Or.inl (.other rfl))) (by simp)) (by simp)

end Verif.Stmts
