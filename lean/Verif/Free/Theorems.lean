import Verif.Free.Toy
/-!
# C81: what the minifier takes for an expression without side effects has none

`free` is the answer of `is_side_effect_free_expr`.  The evaluation of such an expression gives a value, does not throw,
and only creates objects, as long as no operator in it converts an object to a primitive value: the function accepts
`-{valueOf() { … }}`, which calls a method, and `-{__proto__: null}`, which throws.
-/

namespace Verif.Free
open Verif.Expr (Expr Args Elems Parts Members BinOp UnOp ArithOp MethodKind Str Num Val Host M Ctx ascii)

section
variable {F E R I P C W : Type} [DecidableEq R] {H : Host F E R I P C W} {Since : W → W → Prop} {New : W → W → Nat → Prop}

/-- C81, as ECMA-262 evaluates the expression, for every host that creates objects without other effects and BigInts
without a largest value.  Missing: operators that convert an object. -/
theorem C81_partial (A : Allocates H Since New) (hB : Unbounded H.num) (c : Ctx F E) (n : Nat) (x : Expr F P C)
    (hf : free x = true) (hp : Primitives x) (w : W) :
    ∃ v w', Expr.Ecma.value H c true n x w = some (.ok v, w') ∧ Since w w' := by
  obtain ⟨v, w', e, hn, _⟩ := good (c := c) (n := n) (w₀ := w) A hB x hf hp (fun _ => False) w (A.refl w) (fun _ h => h.elim)
  exact ⟨v, w', e, hn.1⟩

end

/-! ## Examples -/

abbrev X := Expr (Option Int) Str Nat

def world : Verif.Expr.Toy.World (Option Int) := Verif.Expr.Toy.world

def ctx : Ctx (Option Int) Unit := { env := (), this := .undef, newTarget := .undef, strict := false }

/-- `[ , {p: 1n << 3n, f() {}, __proto__: null}, !function() {} ? -7n / (-2n) : "a" + 2n]` -/
def sample : X := .arr (.hole (.cons (.object (.prop (ascii "p") (.arith .shl (.big 1) (.big 3))
    (.method .method (ascii "f") 2 (.prop (ascii "__proto__") .null .nil))))
  (.cons (.cond (.unary .not (.func true 2)) (.binary .div (.unary .neg (.big 7)) (.paren (.unary .neg (.big 2))))
    (.binary .add (.str (ascii "a")) (.big 2))) .nil)))

example : free sample = true ∧ Primitives sample :=
  ⟨by decide, by simp [sample, Primitives, PrimitivesE, PrimitivesM, object]⟩

example : ∃ v w', Expr.Ecma.value Toy.host ctx true 0 sample world = some (.ok v, w') ∧ Toy.Since world w' :=
  C81_partial Toy.allocates Toy.unbounded ctx 0 sample (by decide)
    (by simp [sample, Primitives, PrimitivesE, PrimitivesM, object]) world

/-- The answer is no where an operator may throw, and for everything that reads or writes. -/
example : free (.binary .div (.big 1) (.big 0) : X) = false ∧ free (.arith .pow (.big 2) (.unary .neg (.big 1)) : X) = false ∧
    free (.unary .plus (.big 1) : X) = false ∧ free (.binary .add (.big 1) (.num (some 1)) : X) = false ∧
    free (.arith .ushr (.big 1) (.big 1) : X) = false ∧ free (.id (ascii "x") : X) = false := by decide

/-- And these do throw. -/
example : ∀ x ∈ ([.binary .div (.big 1) (.big 0), .arith .pow (.big 2) (.unary .neg (.big 1)), .unary .plus (.big 1),
      .binary .add (.big 1) (.num (some 1)), .arith .ushr (.big 1) (.big 1)] : List X),
    ∃ e w', Expr.Ecma.value Toy.host ctx true 0 x world = some (.throw e, w') := by
  intro x hx
  simp only [List.mem_cons, List.mem_nil_iff, or_false] at hx
  rcases hx with rfl | rfl | rfl | rfl | rfl <;> exact ⟨_, _, rfl⟩

/-! ## Objects that are converted -/

/-- `-{valueOf() { x = 7; return 5 }}` -/
def calls : X := .unary .neg (.object (.method .method (ascii "valueOf") 2 .nil))

/-- The function accepts an expression that writes to a variable. -/
theorem C81_effect_violated : ∃ x : X, free x = true ∧ ∃ v w',
    Expr.Ecma.value Toy.host ctx true 0 x world = some (.ok v, w') ∧
    world.vars.lookup (ascii "x") = none ∧ w'.vars.lookup (ascii "x") = some (.num (some 7)) :=
  ⟨calls, by decide, _, _, rfl, by decide +kernel, by decide +kernel⟩

/-- And it accepts the template literal, the comparison and the `==` with the same object. -/
example : let o : X := .object (.method .method (ascii "toString") 2 .nil)
    ∀ x ∈ ([.template (.subst o .nil), .binary .lt o (.num (some 1)), .binary .eq o (.num (some 1))] : List X),
      free x = true ∧ ∃ v w', Expr.Ecma.value Toy.host ctx true 0 x world = some (.ok v, w') ∧
        w'.vars.lookup (ascii "x") = some (.num (some 7)) := by
  intro o x hx
  simp only [List.mem_cons, List.mem_nil_iff, or_false] at hx
  rcases hx with rfl | rfl | rfl <;> exact ⟨by decide, _, _, rfl, by decide +kernel⟩

/-- The function accepts `-{__proto__: null}`, which throws a TypeError: the object has no methods at all. -/
theorem C81_throw_violated : ∃ x : X, free x = true ∧ ∃ w',
    Expr.Ecma.value Toy.host ctx true 0 x world = some (.throw (.str (ascii "TypeError")), w') :=
  ⟨.unary .neg (.object (.prop (ascii "__proto__") .null .nil)), by decide, _, rfl⟩

end Verif.Free
