import Verif.Fold.Toy
/-!
# C80: constant folding in the minifier keeps the meaning of expressions
-/

namespace Verif.Fold
open Verif.Expr (Expr Args Elems Parts Members BinOp UnOp ArithOp ascii Str Num Val Host M)
open Verif.Eval (Const F64 Lib)

set_option exponentiation.threshold 4000

section
variable {E R I P C W : Type} [DecidableEq R]

/-- C80: folding an expression whose value is used keeps its value and its effects: from any state of any host with the
arithmetic of ECMA-262, the folded expression gives the same value or throws the same exception, and leaves the same state.
Missing are the expressions that are not `Safe`: there the code is wrong. -/
theorem C80_value_partial (H : Host F64 E R I P C W) (c : Expr.Ctx F64 E) (n : Nat) (L : Lib) (hN : Standard L H.num)
    (hL : Shortest L) (mark : Bool) (x : Expr F64 P C) (h : Safe L x) :
    Expr.Ecma.value H c true n (fold L mark .value x) = Expr.Ecma.value H c true n x :=
  ((good hN hL x).1 h).value mark

/-- C80: folding a condition keeps whether it is true, and its effects. -/
theorem C80_condition_partial (H : Host F64 E R I P C W) (c : Expr.Ctx F64 E) (n : Nat) (L : Lib) (hN : Standard L H.num)
    (hL : Shortest L) (mark : Bool) (x : Expr F64 P C) (h : Safe L x) :
    (do pure (Expr.Ecma.toBoolean H (← Expr.Ecma.value H c true n (fold L mark .condition x))) : M F64 W Bool) =
      (do pure (Expr.Ecma.toBoolean H (← Expr.Ecma.value H c true n x))) :=
  ((good hN hL x).1 h).truth mark

/-- C80: a name or a property in the place of a target stays what it is. -/
theorem C80_target_partial (H : Host F64 E R I P C W) (c : Expr.Ctx F64 E) (n : Nat) (L : Lib) (hN : Standard L H.num)
    (hL : Shortest L) (x : Expr F64 P C) (h : Safe L x) (hk : kind x ≠ .value) :
    Expr.Ecma.eval H c true n (fold L false .value x) = Expr.Ecma.eval H c true n x :=
  ((good hN hL x).1 h).target hk

/-- C80: no expression is missing in which no choice is called, accessed, deleted, named or the operand of `typeof` or
`new`, and there is no `**`. -/
theorem C80_clear_partial (H : Host F64 E R I P C W) (c : Expr.Ctx F64 E) (n : Nat) (L : Lib) (hN : Standard L H.num)
    (hL : Shortest L) (mark : Bool) (x : Expr F64 P C) (h : Clear x) :
    Expr.Ecma.value H c true n (fold L mark .value x) = Expr.Ecma.value H c true n x :=
  C80_value_partial H c n L hN hL mark x (clear_safe x h).1

end

/-- C80: the text that a number gets when it is added to a string is that of Number::toString. -/
theorem C80_number_text (L : Lib) (hL : Shortest L) (a : F64) (s : Str) :
    Eval.NumToString L a s ↔ s = numberString L a :=
  ⟨fun h => numToString_unique h (numberString_spec hL a), fun h => h ▸ numberString_spec hL a⟩

open Toy

/-- `!0 && "a" + 1 < "b" ? o.p + 2 * 3 : u.x` -/
def sample : X :=
  .cond (.and (.unary .not (i 0)) (.binary .lt (.binary .add (.str (ascii "a")) (i 1)) (.str (ascii "b"))))
    (.binary .add (.member false (v "o") (ascii "p")) (.binary .mul (i 2) (i 3))) (.member false (v "u") (ascii "x"))

example : Clear sample := by simp [sample, Clear, choice, v, i]

/-- The code becomes `o.p + 6`. -/
def isFolded : X → Bool
  | .binary .add (.member false (.id x) p) (.num a) => x = ascii "o" && p = ascii "p" && a = Eval.number 6
  | _ => false

example : isFolded (fold lib false .value sample) = true := by decide +kernel

example : before sample = some (.ok (.num (Eval.number 7)), world) ∧ after sample = before sample :=
  ⟨by decide +kernel, congrFun (C80_clear_partial host ctx 20 lib host_standard shortest false sample
    (by simp [sample, Clear, choice, v, i])) world⟩

/-- `u = null ?? (b && (1 << 4 | 2))`, which is not clear because the right side is a choice. -/
def sample' : X :=
  .assign (v "u") (.paren (.nullish .null (.and (v "b") (.arith .bitOr (.arith .shl (i 1) (i 4)) (i 2)))))

theorem sample_safe : Safe lib sample' := by
  have : KeepsName lib (.nullish .null (.and (v "b") (.arith .bitOr (.arith .shl (i 1) (i 4)) (i 2)))) := by
    unfold KeepsName
    decide +kernel
  refine ⟨trivial, ⟨trivial, trivial, ⟨trivial, trivial, by simp⟩, trivial, by simp⟩, by simp [v, kind], fun _ => this⟩

example : after sample' = before sample' :=
  congrFun (C80_value_partial host ctx 20 lib host_standard shortest false sample' sample_safe) world

example : (before sample').map Prod.fst = some (.ok (.num (Eval.number 18))) := by decide +kernel

/-- `b && true`, which is folded to `b` only as a condition. -/
def sampleCond : X := .and (v "b") (.bool true)

example : isName (fold lib false .condition sampleCond) = true ∧ isName (fold lib false .value sampleCond) = false :=
  ⟨by decide +kernel, by decide +kernel⟩

example : (do pure (Expr.Ecma.toBoolean host (← Expr.Ecma.value host ctx true 20 (fold lib false .condition sampleCond))) :
      M F64 (Expr.Toy.World F64) Bool) = (do pure (Expr.Ecma.toBoolean host (← Expr.Ecma.value host ctx true 20 sampleCond))) :=
  C80_condition_partial host ctx 20 lib host_standard shortest false sampleCond (by simp [sampleCond, Safe, v])

/-- `o[1 + 1]` is folded, and stays a property of `o`. -/
example : Expr.Ecma.eval host ctx true 20 (fold lib false .value (.index false (v "o") (.binary .add (i 1) (i 1)) : X)) =
    Expr.Ecma.eval host ctx true 20 (.index false (v "o") (.binary .add (i 1) (i 1)) : X) :=
  C80_target_partial host ctx 20 lib host_standard shortest _ (clear_safe _ (by simp [Clear, choice, v, i])).1 (by simp [kind])

example : Eval.NumToString lib (Eval.number 1000000000000000000000) (ascii "1e+21") :=
  (C80_number_text lib shortest _ _).2 (by decide +kernel)

/-! ## Where folding is wrong -/

/-- C80: `(true ? o.self : u)()` calls a function without `this`; after folding, `this` is `o`. -/
theorem C80_this_violated : ∃ x : X,
    before x = some (.ok .undef, world) ∧ after x = some (.ok (.obj 0), world) :=
  ⟨.call false (.paren (.cond (.bool true) (.member false (v "o") (ascii "self")) (v "u"))) .nil,
    by decide +kernel, by decide +kernel⟩

/-- C80: `delete (true ? o.p : u)` changes nothing; after folding, it deletes `o.p`. -/
theorem C80_delete_violated : ∃ x : X,
    before x = some (.ok (.bool true), world) ∧
    after x = some (.ok (.bool true), { world with props := world.props.filter fun p => p.1 ≠ (0, .str (ascii "p")) }) ∧
    world.props.lookup (0, .str (ascii "p")) = some (.num (Eval.number 1)) :=
  ⟨.delete_ (.paren (.cond (.bool true) (.member false (v "o") (ascii "p")) (v "u"))),
    by decide +kernel, by decide +kernel, by decide +kernel⟩

/-- C80: `typeof (true ? nope : 0)` throws a ReferenceError; after folding, it is `"undefined"`. -/
theorem C80_typeof_violated : ∃ x : X,
    before x = some (.throw (.str (ascii "ReferenceError")), world) ∧
    after x = some (.ok (.str (ascii "undefined")), world) :=
  ⟨.typeof_ (.paren (.cond (.bool true) (v "nope") (i 0))), by decide +kernel, by decide +kernel⟩

/-- C80: `new (true ? id(id) : u)` is an instance of `id(id)`, made without arguments; after folding, it is `new id(id)`,
made with one. -/
theorem C80_new_violated : ∃ x : X, ∃ w w', 
    before x = some (.ok (.obj 10), w) ∧ w.props.lookup (10, .str (ascii "count")) = some (.num (Eval.number 0)) ∧
    after x = some (.ok (.obj 10), w') ∧ w'.props.lookup (10, .str (ascii "count")) = some (.num (Eval.number 1)) := by
  refine ⟨.new_ (.paren (.cond (.bool true) (.call false (v "id") (.cons (v "id") .nil)) (v "u"))), _, _, rfl, ?_, rfl, ?_⟩
  · decide +kernel
  · decide +kernel

/-- C80: `(true && u?.a).b` throws a TypeError when `u` is undefined; after folding, it is undefined. -/
theorem C80_chain_violated : ∃ x : X,
    before x = some (.throw (.str (ascii "TypeError")), world) ∧ after x = some (.ok .undef, world) :=
  ⟨.member false (.paren (.and (.bool true) (.member true (v "u") (ascii "a")))) (ascii "b"),
    by decide +kernel, by decide +kernel⟩

/-- C80: in `u = true ? function(){} : 0` the function has no name; after folding, its name is `u`. -/
theorem C80_name_violated : ∃ x : X, ∃ w w',
    before x = some (.ok (.obj 10), w) ∧ w.props.lookup (10, .str (ascii "name")) = some (.str []) ∧
    after x = some (.ok (.obj 10), w') ∧ w'.props.lookup (10, .str (ascii "name")) = some (.str (ascii "u")) := by
  refine ⟨.assign (v "u") (.cond (.bool true) (.func true 0) (i 0)), _, _, rfl, ?_, rfl, ?_⟩
  · decide +kernel
  · decide +kernel

/-- C80: `1 ** (0 / 0)` is NaN; with a `powf` that gives 1 for it, it is 1 after folding. -/
theorem C80_pow_violated : ∃ x : X,
    before x = some (.ok (.num .nan), world) ∧ after x = some (.ok (.num Eval.one), world) :=
  ⟨.arith .pow (i 1) (.paren (.binary .div (i 0) (i 0))), by decide +kernel, by decide +kernel⟩

end Verif.Fold
