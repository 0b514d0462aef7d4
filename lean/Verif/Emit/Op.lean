/-!
# Operators, tokens and their tables

Model of `parse-js/src/operator.rs` (the precedence table), `parse-js/src/parse/operator.rs`
(which token is which operator) and of the operator texts of
`emit-js/src/expr_js.rs`.
-/

namespace Verif.Emit

/-- The operators that may stand in a `BinaryExpr`.
Models the binary members of `OperatorName`, parse-js/src/operator.rs:10-75. -/
inductive BinOp
  | add | sub | mul | div | rem | pow
  | shl | shr | ushr
  | lt | le | gt | ge | in_ | instanceof
  | eq | ne | seq | sne
  | band | bxor | bor | land | lor | nullish
  | assign | assignAdd | assignBand | assignShl | assignBor | assignShr | assignUshr | assignBxor
  | assignDiv | assignPow | assignLand | assignLor | assignMul | assignNullish | assignRem
  | assignSub
  | comma
  deriving DecidableEq, Repr

/-- The operators that may stand in a `UnaryExpr`.
Models the unary members of `OperatorName`, parse-js/src/operator.rs:10-75. -/
inductive UnOp
  | not | bnot | plus | neg | incr | decr | typeof | void | delete | await
  | new | yield | yieldStar
  deriving DecidableEq, Repr

/-- The operators of a `UnaryPostfixExpr`; parse-js/src/operator.rs:60-61. -/
inductive PostOp | incr | decr
  deriving DecidableEq, Repr

/-- All operators. Models `OperatorName`, parse-js/src/operator.rs:10-75, grouped by the node kind
that holds them. -/
inductive Op
  | bin (b : BinOp)
  | un (u : UnOp)
  | post (p : PostOp)
  | member | computed | call
  | optMember | optComputed | optCall
  | conditional | conditionalAlternate
  deriving DecidableEq, Repr

/-- Models `Associativity`, parse-js/src/operator.rs:110-113. -/
inductive Assoc | left | right
  deriving DecidableEq, Repr

/-- The precedence levels, tightest first.
Models `PRECEDENCE_LEVELS`, parse-js/src/operator.rs:122-203 (the arity column is not used by the
code modelled here). -/
def levels : List (List (Op × Assoc)) := [
  [(.member, .left), (.computed, .left), (.call, .left), (.un .new, .right), (.optMember, .left),
   (.optComputed, .left), (.optCall, .left)],
  [(.post .incr, .left), (.post .decr, .left)],
  [(.un .not, .right), (.un .bnot, .right), (.un .plus, .right), (.un .neg, .right),
   (.un .incr, .right), (.un .decr, .right), (.un .typeof, .right), (.un .void, .right),
   (.un .delete, .right), (.un .await, .right)],
  [(.bin .pow, .right)],
  [(.bin .mul, .left), (.bin .div, .left), (.bin .rem, .left)],
  [(.bin .add, .left), (.bin .sub, .left)],
  [(.bin .shl, .left), (.bin .shr, .left), (.bin .ushr, .left)],
  [(.bin .lt, .left), (.bin .le, .left), (.bin .gt, .left), (.bin .ge, .left), (.bin .in_, .left),
   (.bin .instanceof, .left)],
  [(.bin .eq, .left), (.bin .ne, .left), (.bin .seq, .left), (.bin .sne, .left)],
  [(.bin .band, .left)],
  [(.bin .bxor, .left)],
  [(.bin .bor, .left)],
  [(.bin .land, .left)],
  [(.bin .lor, .left), (.bin .nullish, .left)],
  [(.conditional, .right)],
  [(.bin .assign, .right), (.bin .assignAdd, .right), (.bin .assignBand, .right),
   (.bin .assignShl, .right), (.bin .assignBor, .right), (.bin .assignShr, .right),
   (.bin .assignUshr, .right), (.bin .assignBxor, .right), (.bin .assignDiv, .right),
   (.bin .assignPow, .right), (.bin .assignLand, .right), (.bin .assignLor, .right),
   (.bin .assignMul, .right), (.bin .assignNullish, .right), (.bin .assignRem, .right),
   (.bin .assignSub, .right), (.un .yield, .right), (.un .yieldStar, .right)],
  [(.conditionalAlternate, .right)],
  [(.bin .comma, .left)]]

/-- Precedence of an operator in a list of levels: the number of levels from its own to the last.
Models the construction of `OPERATORS`, parse-js/src/operator.rs:205-222 (`PRECEDENCE_LEVELS.len()
- i`). -/
def precIn (op : Op) : List (List (Op × Assoc)) → Nat
  | [] => 0
  | l :: ls => if l.any (fun x => x.1 == op) then ls.length + 1 else precIn op ls

/-- `OPERATORS[op].precedence`, parse-js/src/operator.rs:205-222. -/
def prec (op : Op) : Nat := precIn op levels

/-- `OPERATORS[op].associativity`, parse-js/src/operator.rs:205-222. -/
def assoc (op : Op) : Assoc := (levels.flatten.lookup op).getD .left

/-- `next_min_prec`: the precedence an operand to the right of the operator must have.
Models parse-js/src/parse/expr/mod.rs:807-808 and 1621-1622. -/
def nextMin (op : Op) : Nat := prec op + (if assoc op = .left then 1 else 0)

/-- Models `OperatorName::is_assignment`, parse-js/src/operator.rs:79-100. -/
def BinOp.isAssignment : BinOp → Bool
  | .assign | .assignAdd | .assignBand | .assignShl | .assignBor | .assignShr | .assignUshr
  | .assignBxor | .assignDiv | .assignPow | .assignLand | .assignLor | .assignMul
  | .assignNullish | .assignRem | .assignSub => true
  | _ => false

/-- The tokens of expressions and statements, named as `TT` in parse-js/src/token.rs where possible.
`nl` in front of a token says that a line terminator precedes it (`preceded_by_line_terminator`).

Simplifications: an identifier or a property name is one token `id n`; an object literal `{…}`, a
template literal and the head `(params) =>` of an arrow function are single opaque tokens
(`obj`, `tpl`, `arrow`), and so are all other primary expressions that have no operator structure
of their own (`this`, strings, `new.target`, `import.meta`, …: `prim`), except that `func` is a
`function` or `class` expression and `regex` a regular expression; `num` is a number literal,
including the extra dot the emitter writes before a member access; a declaration or statement that is
not looked into and ends with its own `}` (functions, classes, `switch`, `try`) is one token `decl`. -/
inductive Tok
  | id (n : Nat) | num (n : Nat) | obj (n : Nat) | prim (n : Nat) | tpl (n : Nat) | arrow (n : Nat)
  | lp | rp | lb | rb | rbrace | dot | qdot | qdotLp | qdotLb | dots | colon | question | semi
  | plusplus | minusminus | bang | tilde | typeof | void | delete | await | new | yield
  | plus | minus | star | slash | percent | starstar
  | shl | shr | ushr
  | lt | le | gt | ge | in_ | instanceof
  | eqeq | bangeq | eqeqeq | bangeqeq
  | amp | caret | bar | ampamp | barbar | qq
  | eq | plusEq | ampEq | shlEq | barEq | shrEq | ushrEq | caretEq | slashEq | starstarEq
  | ampampEq | barbarEq | starEq | qqEq | percentEq | minusEq
  | comma
  | nl | regex (n : Nat) | func (n : Nat) | lbrace | decl (n : Nat)
  | kif | kelse | kwhile | kdo | kfor | kvar | klet | kconst | kbreak | kcontinue | kreturn | kthrow
  | kdebugger
  deriving DecidableEq, Repr

/-- Models `MULTARY_OPERATOR_MAPPING`, parse-js/src/parse/operator.rs:10-63. -/
def binaryOf : Tok → Option Op
  | .plus => some (.bin .add)
  | .eq => some (.bin .assign)
  | .plusEq => some (.bin .assignAdd)
  | .ampEq => some (.bin .assignBand)
  | .shlEq => some (.bin .assignShl)
  | .barEq => some (.bin .assignBor)
  | .shrEq => some (.bin .assignShr)
  | .ushrEq => some (.bin .assignUshr)
  | .caretEq => some (.bin .assignBxor)
  | .slashEq => some (.bin .assignDiv)
  | .starstarEq => some (.bin .assignPow)
  | .ampampEq => some (.bin .assignLand)
  | .barbarEq => some (.bin .assignLor)
  | .starEq => some (.bin .assignMul)
  | .qqEq => some (.bin .assignNullish)
  | .percentEq => some (.bin .assignRem)
  | .minusEq => some (.bin .assignSub)
  | .amp => some (.bin .band)
  | .shl => some (.bin .shl)
  | .bar => some (.bin .bor)
  | .shr => some (.bin .shr)
  | .ushr => some (.bin .ushr)
  | .caret => some (.bin .bxor)
  | .lp => some .call
  | .comma => some (.bin .comma)
  | .lb => some .computed
  | .question => some .conditional
  | .slash => some (.bin .div)
  | .eqeq => some (.bin .eq)
  | .starstar => some (.bin .pow)
  | .gt => some (.bin .gt)
  | .ge => some (.bin .ge)
  | .in_ => some (.bin .in_)
  | .bangeq => some (.bin .ne)
  | .instanceof => some (.bin .instanceof)
  | .lt => some (.bin .lt)
  | .le => some (.bin .le)
  | .ampamp => some (.bin .land)
  | .barbar => some (.bin .lor)
  | .dot => some .member
  | .star => some (.bin .mul)
  | .qq => some (.bin .nullish)
  | .qdot => some .optMember
  | .qdotLb => some .optComputed
  | .qdotLp => some .optCall
  | .percent => some (.bin .rem)
  | .eqeqeq => some (.bin .seq)
  | .bangeqeq => some (.bin .sne)
  | .minus => some (.bin .sub)
  | .typeof => some (.un .typeof)
  | _ => none

/-- Models `UNARY_OPERATOR_MAPPING`, parse-js/src/parse/operator.rs:66-82. -/
def unaryOf : Tok → Option UnOp
  | .await => some .await
  | .tilde => some .bnot
  | .delete => some .delete
  | .bang => some .not
  | .new => some .new
  | .minusminus => some .decr
  | .plusplus => some .incr
  | .minus => some .neg
  | .plus => some .plus
  | .typeof => some .typeof
  | .void => some .void
  | .yield => some .yield
  | _ => none

/-- The text written for a binary operator.
Models `binary_operator_text`, emit-js/src/expr_js.rs:942-990, and `emit_binary_operator` /
`emit_assign_operator`, emit-js/src/hir.rs:2057-2110, the text being named by its token. -/
def binTok : BinOp → Tok
  | .add => .plus
  | .sub => .minus
  | .mul => .star
  | .div => .slash
  | .rem => .percent
  | .pow => .starstar
  | .lt => .lt
  | .le => .le
  | .gt => .gt
  | .ge => .ge
  | .eq => .eqeq
  | .ne => .bangeq
  | .seq => .eqeqeq
  | .sne => .bangeqeq
  | .band => .amp
  | .bor => .bar
  | .bxor => .caret
  | .shl => .shl
  | .shr => .shr
  | .ushr => .ushr
  | .land => .ampamp
  | .lor => .barbar
  | .nullish => .qq
  | .in_ => .in_
  | .instanceof => .instanceof
  | .comma => .comma
  | .assign => .eq
  | .assignAdd => .plusEq
  | .assignBand => .ampEq
  | .assignShl => .shlEq
  | .assignBor => .barEq
  | .assignShr => .shrEq
  | .assignUshr => .ushrEq
  | .assignBxor => .caretEq
  | .assignDiv => .slashEq
  | .assignPow => .starstarEq
  | .assignLand => .ampampEq
  | .assignLor => .barbarEq
  | .assignMul => .starEq
  | .assignNullish => .qqEq
  | .assignRem => .percentEq
  | .assignSub => .minusEq

/-- The text written for a prefix operator.
Models `unary_operator_text` and the `*` of `yield*`, emit-js/src/expr_js.rs:992-1008 and
386-414; `emit_unary_operator` and the `yield` case of `emit_expr_no_parens`,
emit-js/src/hir.rs:2037-2055 and 1643-1660. -/
def unTok : UnOp → List Tok
  | .not => [.bang]
  | .bnot => [.tilde]
  | .plus => [.plus]
  | .neg => [.minus]
  | .incr => [.plusplus]
  | .decr => [.minusminus]
  | .typeof => [.typeof]
  | .void => [.void]
  | .delete => [.delete]
  | .await => [.await]
  | .new => [.new]
  | .yield => [.yield]
  | .yieldStar => [.yield, .star]

/-- The text of `++` and `--` after an operand: `emit_postfix`, emit-js/src/expr_js.rs:464-473. -/
def postTok : PostOp → Tok
  | .incr => .plusplus
  | .decr => .minusminus

end Verif.Emit
