import Verif.Emit.Model

/-!
# Unfolding the parser
-/

namespace Verif.Emit

set_option hygiene false in
/-- One step of running the parser on concrete tokens. -/
macro "pstep" : tactic => `(tactic|
  ((first
    | rw [loop.eq_def] | rw [operand.eq_def] | rw [newChain.eq_def] | rw [callArgs.eq_def]
    | rw [arrElems.eq_def] | rw [exprMin.eq_def])
   try simp (decide := true) only [unaryOf, binaryOf, isYield, isArrow, expect, powDisallowed,
     isTarget, dropNl, BinOp.isAssignment, hasOperand, startsOperand, List.contains_cons,
     List.contains_nil, List.head?_cons, List.tail_cons, List.tail_nil, Option.bind_eq_bind, Option.bind_some,
     Option.bind_none, if_true, if_false, ite_true, ite_false, ↓reduceIte, Bool.false_eq_true,
     Bool.or_false, Bool.and_false, Bool.false_and, Bool.true_and, Bool.and_true, Bool.not_true,
     Bool.not_false, reduceCtorEq, beq_self_eq_true, Option.some.injEq, List.head?_nil]))

/-- Run the parser on concrete tokens. -/
macro "prun" : tactic => `(tactic| repeat pstep)

end Verif.Emit
