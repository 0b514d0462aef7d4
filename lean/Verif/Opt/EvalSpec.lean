import Verif.Opt.Model
/-!
# When the compile-time evaluator may be trusted
-/

namespace Verif.Opt

open Verif.Il

/-- A nonempty name of ASCII letters, digits, `_` and `$` that does not start with a digit. -/
def PlainName (q : List Nat) : Prop :=
  ∃ a as, q = a :: as ∧ ¬ (48 ≤ a ∧ a ≤ 57) ∧
    ∀ ch ∈ q, (97 ≤ ch ∧ ch ≤ 122) ∨ (65 ≤ ch ∧ ch ≤ 90) ∨ (48 ≤ ch ∧ ch ≤ 57) ∨ ch = 95 ∨ ch = 36

/-- What compile-time evaluation promises is what the program would compute, without effects.  `member` says
that a property of a builtin is the builtin of that name. -/
structure EvalSound {V W : Type} (K : Evaluator) (I : Interp V W) : Prop where
  bin : ∀ (op : BinOp) (l r v : Const) (w : W), K.bin op l r = some v →
    I.op (.bin op) [I.lit (.const l), I.lit (.const r)] w = (I.lit (.const v), w)
  comm : ∀ (op : BinOp) (x y : Nat) (w : W), op = .add ∨ op = .mul →
    I.op (.bin op) [I.lit (.const (.num x)), I.lit (.const (.num y))] w =
      I.op (.bin op) [I.lit (.const (.num y)), I.lit (.const (.num x))] w
  member : ∀ (o q : List Nat) (w : W), PlainName q →
    I.op (.bin .getProp) [I.lit (.builtin o), I.lit (.const (.str q))] w = (I.lit (.builtin (o ++ [46] ++ q)), w)
  builtinVal : ∀ (p : List Nat) (v : Const), K.builtinVal p = some v → I.lit (.builtin p) = I.lit (.const v)
  call : ∀ (f : List Nat) (cs : List Const) (v : Const) (this : V) (w : W), K.call f cs = some v →
    I.op (.call []) (I.lit (.builtin f) :: this :: cs.map (fun c => I.lit (.const c))) w = (I.lit (.const v), w)

end Verif.Opt
