import Verif.Emit.Model

/-!
# Which expressions the printers can print

`RoundTrip` is the property a printer should have. `okA` and `okH` are the expressions for which it
is proved; every clause that leaves something out has a witness in `Theorems.lean` showing that the
printer really loses the expression there (except that a template tagged by a `new` without
arguments is left out although it is read back correctly).
-/

namespace Verif.Emit

/-- Terminator lists: the parser is always called with some of these. -/
def Terminators (term : List Tok) : Prop :=
  ∀ t ∈ term, t ∈ [Tok.rp, .rb, .colon, .comma, .semi, .rbrace, .in_]

/-- These tokens go on with an expression although a line terminator stands in front of them:
operators, templates, the `/` and `(` that regular expressions and arrow functions begin with, and
`typeof`, which the parser takes for a binary operator. -/
def joins : Tok → Bool
  | .tpl _ | .regex _ | .arrow _ | .nl | .typeof => true
  | t => (binaryOf t).isSome

/-- `rest` begins where an expression statement or operand ends: at a terminator, or, where a
semicolon may be inserted, at `}`, at the end of the text or at a line terminator in front of a token
that does not go on with the expression. If the colon of a conditional is waited for then it is the
colon. -/
def Ends (term : List Tok) (asi : Bool) (rest : List Tok) : Prop :=
  (match rest with
   | [] => asi = true
   | .nl :: t :: _ => asi = true ∧ joins t = false
   | t :: _ => t ∈ term ∨ (asi = true ∧ (t = .rbrace ∨ t = .nl))) ∧
  (Tok.colon ∈ term → rest.head? = some .colon)

/-- A printer gets `e` right: wherever an expression may stand, the parser reads back `e` from the
printed tokens and leaves what follows. Where a comma ends the expression, `e` itself must not be a
comma expression, and where `in` ends it no `in` may be printed. -/
def RoundTrip (print : Expr → List Tok) (e : Expr) : Prop :=
  ∀ (term : List Tok) (asi : Bool) (rest : List Tok), Terminators term → Ends term asi rest →
    (Tok.comma ∈ term → isComma e = false) → (Tok.in_ ∈ term → Tok.in_ ∉ print e) →
    parseExpr term asi (print e ++ rest) = some (e, rest)

/-- What may stand left of an assignment operator here: a name or a member access without `?.`. -/
def assignable : Expr → Bool
  | .id _ | .member false _ _ | .index false _ _ => true
  | _ => false

/-- `new C` without arguments. -/
def bareNew : Expr → Bool
  | .unary .new (.call false _ _) => false
  | .unary .new _ => true
  | _ => false

/-- May stand after `new` in front of its arguments: printed without parentheses there, it has no
call, no template and no `new` without arguments in its chain of member accesses. -/
def okCtor : Expr → Bool
  | .call _ _ _ => false
  | .tagged _ _ => false
  | .member _ o _ => okCtor o
  | .index _ o _ => okCtor o
  | e => !bareNew e

/-- The printed syntax tree ends with an arrow function outside parentheses. -/
def endsArrowA : Expr → Bool
  | .arrow _ _ => true
  | .binary b _ r => (b.isAssignment || b = .comma) && !isComma r && endsArrowA r
  | .unary .yield e => !isComma e && endsArrowA e
  | .unary .yieldStar e => !isComma e && endsArrowA e
  | _ => false

mutual
/-- Expressions the syntax tree printer is proved to print faithfully. Left out, besides what the
parser itself never builds (assignment to something that is no target, holes in arguments):
comma expressions as arguments or elements, a final hole, `new` without arguments as callee, object
or tag, calls and templates in a constructor, and a comma after an arrow function. -/
def okA : Expr → Bool
  | .id _ | .num _ | .obj _ | .prim _ | .tpl _ | .regex _ | .func _ => true
  | .unary .new (.call false f as) => okA f && okItemsA false as && (startsOpt f || okCtor f)
  | .unary .new e => okA e && (startsOpt e || okCtor e || bareNew e)
  | .unary _ e => okA e
  | .post _ e => okA e
  | .binary b l r =>
    okA l && okA r && (!b.isAssignment || assignable l) && !(b = .comma && endsArrowA l)
  | .cond c t f => okA c && okA t && okA f
  | .call _ f as => okA f && okItemsA false as && !bareNew f
  | .member _ o _ => okA o && !bareNew o
  | .index _ o i => okA o && okA i && !bareNew o
  | .tagged f _ => okA f && !bareNew f
  | .arr es => okItemsA true es
  | .arrow _ e => okA e
/-- Arguments (`false`) and elements (`true`). -/
def okItemsA : Bool → Items → Bool
  | _, .nil => true
  | h, .hole rest => h && rest != .nil && okItemsA h rest
  | h, .item _ e rest => !isComma e && okA e && okItemsA h rest
end

/-- The printed lowered expression ends with an arrow function outside parentheses: the lowered
form printer gives arrow functions the precedence 2, so fewer do. -/
def endsArrowH : Expr → Bool
  | .arrow _ _ => true
  | .binary .comma _ r => !isComma r && endsArrowH r
  | _ => false

/-- The printed lowered expression starts with an object literal. -/
def startsObj : Expr → Bool
  | .obj _ => true
  | .binary _ l _ => startsObj l
  | .call _ f _ => startsObj f
  | .member _ o _ => startsObj o
  | .index _ o _ => startsObj o
  | .tagged f _ => startsObj f
  | .post _ e => startsObj e
  | .cond c _ _ => startsObj c
  | _ => false

/-- An object literal. -/
def isObj : Expr → Bool
  | .obj _ => true
  | _ => false

/-- `await` on the left of `**`. -/
def isAwait : Expr → Bool
  | .unary .await _ => true
  | _ => false

mutual
/-- Expressions the lowered form printer is proved to print faithfully. Lowering turns every `new`
into a construction with an argument list, so `new` stands in front of a call only. Also left out,
besides the cases of `okA`: `await` to the left of `**`, and arrow functions whose body starts with
an object literal without being one. -/
def okH : Expr → Bool
  | .id _ | .num _ | .obj _ | .prim _ | .tpl _ | .regex _ | .func _ => true
  | .unary .new (.call false f as) => okH f && okItemsH false as && (startsOpt f || okCtor f)
  | .unary .new _ => false
  | .unary _ e => okH e
  | .post _ e => okH e
  | .binary b l r =>
    okH l && okH r && (!b.isAssignment || assignable l) && !(b = .comma && endsArrowH l) &&
      !(b = .pow && isAwait l)
  | .cond c t f => okH c && okH t && okH f
  | .call _ f as => okH f && okItemsH false as
  | .member _ o _ => okH o
  | .index _ o i => okH o && okH i
  | .tagged f _ => okH f
  | .arr es => okItemsH true es
  | .arrow _ e => okH e && (isObj e || isComma e || !startsObj e)
/-- Arguments (`false`) and elements (`true`). -/
def okItemsH : Bool → Items → Bool
  | _, .nil => true
  | h, .hole rest => h && rest != .nil && okItemsH h rest
  | h, .item _ e rest => !isComma e && okH e && okItemsH h rest
end

/-- The text of the third printer ends with an arrow function outside parentheses. -/
def endsArrowJ : Expr → Bool
  | .arrow _ _ => true
  | .binary b _ r => (b.isAssignment || b = .comma) && !isComma r && endsArrowJ r
  | .cond _ _ f => !isComma f && endsArrowJ f
  | _ => false

/-- A power. -/
def isPow : Expr → Bool
  | .binary .pow _ _ => true
  | _ => false

mutual
/-- Expressions the third printer is proved to print faithfully. Left out, besides what it reports as
unsupported and assignments to something that is no target: comma expressions as arguments and as
bodies of arrow functions, a comma after an arrow function, and a power as base of a power. -/
def okJ : Expr → Bool
  | .id _ | .num _ | .prim _ | .regex _ => true
  | .obj _ | .tpl _ | .func _ | .tagged _ _ | .arr _ => false
  | .unary .new _ | .unary .yield _ | .unary .yieldStar _ => false
  | .unary _ e => okJ e
  | .post _ e => okJ e
  | .binary b l r =>
    okJ l && okJ r && (!b.isAssignment || assignable l) && !(b = .comma && endsArrowJ l) &&
      !(b = .pow && isPow l)
  | .cond c t f => okJ c && okJ t && okJ f
  | .call _ f as => okJ f && okItemsJ as
  | .member _ o _ => okJ o
  | .index _ o i => okJ o && okJ i
  | .arrow _ e => okJ e && !isComma e
/-- Arguments. -/
def okItemsJ : Items → Bool
  | .nil => true
  | .hole _ => false
  | .item _ e rest => !isComma e && okJ e && okItemsJ rest
end

end Verif.Emit
