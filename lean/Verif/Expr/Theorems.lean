import Verif.Expr.Main
import Verif.Expr.Toy
/-!
# C79: expressions do what ECMA-262 says

`AsEcma` is the property: for every expression, context and state the evaluator of the VM gives the result of ECMA-262
and leaves the state ECMA-262 leaves, unless it gives up with an error no program can catch.  The property ranges over
all objects, functions, environments and number formats: everything the expressions work on is a `Host`, which the
evaluator and ECMA-262 share.

It does not hold.  `C79_partial` proves it for the runs that meet none of the cases marked by `within` in the
specification; for each of these cases one of the theorems `C79_…_violated` has an expression the evaluator gets wrong.
-/

namespace Verif.Expr
open Verif.Exec (Out)

section
variable {F E R I P C W : Type} [DecidableEq R]

/-- The evaluator does for an expression what ECMA-262 says. -/
def AsEcma (H : Host F E R I P C W) (c : Ctx F E) (n : Nat) (x : Expr F P C) (w : W) : Prop :=
  ¬ Fatal (evalX H c n x w) → evalX H c n x w = Ecma.value H c true n x w

/-- A run, after ECMA-262, that meets none of the cases marked by `within`. -/
def Covered (H : Host F E R I P C W) (c : Ctx F E) (n : Nat) (x : Expr F P C) (w : W) : Prop :=
  ¬ Fatal (Ecma.value H c false n x w)

/-- **C79**, for the runs that meet none of the cases marked by `within` in the specification.  Missing: those cases,
see `C79_string_order_violated` and so on. -/
theorem C79_partial (H : Host F E R I P C W) (c : Ctx F E) (n : Nat) (x : Expr F P C) (w : W)
    (hs : Covered H c n x w) : AsEcma H c n x w := by
  intro hm
  have hfull := (valueOf_sub H (eval_sub H c n x)).apply hs
  rcases (good H c n x).val w with h | h | h
  · exact absurd h hm
  · exact absurd h hs
  · unfold evalX Ecma.value
    rw [← hfull]
    revert h
    generalize (evalN H c n x).val w = a
    generalize Ecma.valueOf H (Ecma.eval H c false n x) w = b
    intro h
    cases h with
    | none => rfl
    | ok q => cases q; rfl
    | throw => rfl

/-- The cases are left out, not changed: what the specification says when it does not give up is ECMA-262. -/
theorem C79_left_out (H : Host F E R I P C W) (c : Ctx F E) (n : Nat) (x : Expr F P C) (w : W)
    (hs : Covered H c n x w) : Ecma.value H c false n x w = Ecma.value H c true n x w :=
  (valueOf_sub H (eval_sub H c n x)).apply hs

end

section Examples
open Toy

/-- `o.p = id(2) + o["p"]`, `o.self() === o ? typeof nowhere : 0`, `[..."ab", id(...a)].length` and
`({ p: 1, ...o, [a]: u ?? 3 }).p`, `` `${a}-${o.p}` ``, `o?.p`, `u?.p`, `u?.self()`, `o.p++ + o.p`, `new id(1, 2).count`,
`a == 10 && delete o.p`: none of the cases is met, nothing is fatal, and so the evaluator does what ECMA-262 says. -/
def samples : List X := [
  .assign (dot (v "o") "p") (.binary .add (.call false (v "id") (.cons (i 2) .nil)) (.index false (v "o") (.str (ascii "p")))),
  .cond (.binary .strictEq (.call false (dot (v "o") "self") .nil) (v "o")) (.typeof_ (v "nowhere")) (i 0),
  dot (.arr (.spread (.str (ascii "ab")) (.cons (.call false (v "id") (.spread (v "a") .nil)) .nil))) "length",
  dot (.object (.prop (ascii "p") (i 1) (.spread (v "o") (.computed (v "a") (.nullish (v "u") (i 3)) .nil)))) "p",
  .template (.subst (v "a") (.text (ascii "-") (.subst (dot (v "o") "p") .nil))),
  .member true (v "o") (ascii "p"),
  .member true (v "u") (ascii "p"),
  .call false (.member true (v "u") (ascii "self")) .nil,
  .binary .add (.update false true (dot (v "o") "p")) (dot (v "o") "p"),
  dot (.new_ (.call false (v "id") (.cons (i 1) (.cons (i 2) .nil)))) "count",
  .and (.binary .eq (v "a") (i 10)) (.delete_ (dot (v "o") "p")),
  .binary .lt (v "a") (i 9),
  .binary .instanceof (.object .nil) (v "id"),
  v "nowhere"]

example : (samples.map fun x => (covered false x, (vm false x).map (·.1))) = [
    (true, some (.ok (.num (some 3)))),
    (true, some (.ok (.str (ascii "undefined")))),
    (true, some (.ok (.num (some 3)))),
    (true, some (.ok (.num (some 1)))),
    (true, some (.ok (.str (ascii "10-1")))),
    (true, some (.ok (.num (some 1)))),
    (true, some (.ok .undef)),
    (true, some (.ok .undef)),
    (true, some (.ok (.num (some 3)))),
    (true, some (.ok (.num (some 2)))),
    (true, some (.ok (.bool true))),
    (true, some (.ok (.bool false))),
    (true, some (.ok (.bool false))),
    (true, some (.throw (.str (ascii "ReferenceError"))))] := by decide +kernel

example : ∀ x ∈ samples, vm false x = ecma false x := by decide +kernel

end Examples

/-!
## What the evaluator gets wrong

Each theorem has the result of the evaluator and that of ECMA-262.
-/

section Violated
open Toy

/-- The evaluator gives one result and ECMA-262 another one. -/
def Differs (strict : Bool) (x : X) (a b : Out V V) : Prop :=
  ¬ AsEcma host (ctx strict) 20 x world ∧ (vm strict x).map (·.1) = some a ∧ (ecma strict x).map (·.1) = some b

theorem differs {strict : Bool} {x : X} {a b : Out V V} (h1 : (vm strict x).map (·.1) = some a)
    (h2 : (ecma strict x).map (·.1) = some b) (ha : a ≠ .fatal) (hab : a ≠ b) : Differs strict x a b := by
  refine ⟨fun h => ?_, h1, h2⟩
  have hf : ¬ Fatal (vm strict x) := by
    rintro ⟨w, hw⟩
    rw [hw] at h1
    exact ha (Option.some.inj h1).symm
  have := congrArg (Option.map (·.1)) (h hf)
  exact hab (Option.some.inj (h1.symm.trans (this.trans h2)))

/-- `"10" < "9"`: strings are ordered by code units, but the evaluator compares numbers. -/
theorem C79_string_order_violated : Differs false (.binary .lt (v "a") (v "b"))
    (.ok (.bool false)) (.ok (.bool true)) :=
  differs (by decide +kernel) (by decide +kernel) (by decide) (by decide +kernel)

/-- `2n < 3n`: the evaluator throws. -/
theorem C79_bigint_order_violated : Differs false (.binary .lt (.big 2) (.big 3))
    (.throw (.str (ascii "TypeError"))) (.ok (.bool true)) :=
  differs (by decide +kernel) (by decide +kernel) (by decide) (by decide +kernel)

/-- `5n - 2n`: the evaluator throws. -/
theorem C79_bigint_sub_violated : Differs false (.binary .sub (.big 5) (.big 2))
    (.throw (.str (ascii "TypeError"))) (.ok (.big 3)) :=
  differs (by decide +kernel) (by decide +kernel) (by decide) (by decide +kernel)

/-- `1n == 1`: the evaluator says no. -/
theorem C79_bigint_equal_violated : Differs false (.binary .eq (.big 1) (i 1))
    (.ok (.bool false)) (.ok (.bool true)) :=
  differs (by decide +kernel) (by decide +kernel) (by decide) (by decide +kernel)

/-- `({ valueOf: setx }) == 5`, where `setx()` is 5: the evaluator takes every object for the string `[object Object]`. -/
theorem C79_object_equal_violated : Differs false (.binary .eq (.object (.prop (ascii "valueOf") (v "setx") .nil)) (i 5))
    (.ok (.bool false)) (.ok (.bool true)) :=
  differs (by decide +kernel) (by decide +kernel) (by decide) (by decide +kernel)

/-- `"use strict"; delete o.fixed`, which cannot be deleted: the evaluator does not throw. -/
theorem C79_strict_delete_violated : Differs true (.delete_ (dot (v "o") "fixed"))
    (.ok (.bool false)) (.throw (.str (ascii "TypeError"))) :=
  differs (by decide +kernel) (by decide +kernel) (by decide) (by decide +kernel)

/-- `"__proto__" in { __proto__: o }`, in a world whose objects inherit no such property: the evaluator makes a property
instead of setting the prototype. -/
theorem C79_proto_violated : Differs false (.binary .in_ (.str (ascii "__proto__")) (.object (.prop (ascii "__proto__") (v "o") .nil)))
    (.ok (.bool true)) (.ok (.bool false)) :=
  differs (by decide +kernel) (by decide +kernel) (by decide) (by decide +kernel)

/-- `new (id(setx))`: the evaluator makes an instance of `id`, not of `setx`. -/
theorem C79_new_call_violated : Differs false (dot (.new_ (.paren (.call false (v "id") (.cons (v "setx") .nil)))) "made")
    (.ok (.obj 1)) (.ok (.obj 3)) :=
  differs (by decide +kernel) (by decide +kernel) (by decide) (by decide +kernel)

/-- `(u?.p)()`, where `u` is undefined: the parentheses end the chain, and `undefined` cannot be called. -/
theorem C79_closed_chain_violated : Differs false (.call false (.paren (.member true (v "u") (ascii "p"))) .nil)
    (.ok .undef) (.throw (.str (ascii "TypeError"))) :=
  differs (by decide +kernel) (by decide +kernel) (by decide) (by decide +kernel)

/-- `u?.p()()`, where `u` is undefined: the chain ends at once, but the evaluator goes on with the second call. -/
theorem C79_chain_violated : Differs false (.call false (.call false (.member true (v "u") (ascii "p")) .nil) .nil)
    (.throw (.str (ascii "TypeError"))) (.ok .undef) :=
  differs (by decide +kernel) (by decide +kernel) (by decide) (by decide +kernel)

/-- `o instanceof arrow`, a function without `prototype`: the evaluator does not throw. -/
theorem C79_instanceof_arrow_violated : Differs false (.binary .instanceof (v "o") (v "arrow"))
    (.ok (.bool false)) (.throw (.str (ascii "TypeError"))) :=
  differs (by decide +kernel) (by decide +kernel) (by decide) (by decide +kernel)

/-- `o instanceof { [Symbol.hasInstance]: id }`: the evaluator throws. -/
theorem C79_instanceof_object_violated : Differs false (.binary .instanceof (v "o") (.object (.computed (v "hasInstance") (v "id") .nil)))
    (.throw (.str (ascii "TypeError"))) (.ok (.bool true)) :=
  differs (by decide +kernel) (by decide +kernel) (by decide) (by decide +kernel)

/-- `(f = function () {}).name`: the evaluator gives the function no name. -/
theorem C79_name_violated : Differs false (dot (.assign (v "f") (.func true 0)) "name")
    (.ok (.str [])) (.ok (.str (ascii "f"))) :=
  differs (by decide +kernel) (by decide +kernel) (by decide) (by decide +kernel)

/-- `"use strict"; x = setx()`, where there is no `x` before the call, which makes it: the evaluator finds the new `x`. -/
theorem C79_late_binding_violated : Differs true (.assign (v "x") (.call false (v "setx") .nil))
    (.ok (.num (some 5))) (.throw (.str (ascii "ReferenceError"))) :=
  differs (by decide +kernel) (by decide +kernel) (by decide) (by decide +kernel)

end Violated

end Verif.Expr
