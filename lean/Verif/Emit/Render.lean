import Verif.Emit.Steps

/-!
# Renderings

A rendering of an expression is a token list with at least the parentheses the parser needs. It
comes with an *edge*: the loosest precedence at which the parser is still willing to go on reading
when it has reached the end of the rendering. An edge of 20 says that the rendering is closed.
-/

namespace Verif.Emit

/-- The expressions read by `operand` alone. -/
def isBase : Expr → Bool
  | .id _ | .num _ | .obj _ | .prim _ | .tpl _ | .regex _ | .func _ | .arr _ => true
  | .unary .new _ => true
  | _ => false

mutual
/-- `Sh m e p k ts`: `ts` renders `e` where precedence `m` is required; `p` says whether in
parentheses, `k` is the edge. -/
inductive Sh : Nat → Expr → Bool → Nat → List Tok → Prop
  | paren (m : Nat) (e : Expr) (k : Nat) (ts : List Tok) :
      Bare e k ts → Sh m e true 20 (parens ts)
  | bare (m : Nat) (e : Expr) (k : Nat) (ts : List Tok) :
      m ≤ precA e → Bare e k ts → Sh m e false k ts
/-- Renderings without outer parentheses. -/
inductive Bare : Expr → Nat → List Tok → Prop
  | id (n : Nat) : Bare (.id n) 20 [.id n]
  | num (n : Nat) : Bare (.num n) 20 [.num n]
  | obj (n : Nat) : Bare (.obj n) 20 [.obj n]
  | prim (n : Nat) : Bare (.prim n) 20 [.prim n]
  | tpl (n : Nat) : Bare (.tpl n) 20 [.tpl n]
  | regex (n : Nat) : Bare (.regex n) 20 [.regex n]
  | func (n : Nat) : Bare (.func n) 20 [.func n]
  | un (op : UnOp) (e : Expr) (p : Bool) (k : Nat) (ts : List Tok) :
      op ≠ .new → Sh (nextMin (.un op)) e p k ts →
      Bare (.unary op e) (min (nextMin (.un op)) k) (unTok op ++ ts)
  | newArgs (c : Expr) (as : Items) (ts ta : List Tok) :
      Chain c ts → Its false as ta →
      Bare (.unary .new (.call false c as)) 20 (.new :: ts ++ .lp :: ta ++ [.rp])
  | newBare (c : Expr) (ts : List Tok) : Chain c ts → Bare (.unary .new c) 18 (.new :: ts)
  | newNew (c : Expr) (ts : List Tok) :
      Bare (.unary .new c) 18 ts → Bare (.unary .new (.unary .new c)) 18 (.new :: ts)
  | post (op : PostOp) (e : Expr) (p : Bool) (k : Nat) (ts : List Tok) :
      Sh (prec (.post op)) e p k ts → prec (.post op) < k →
      Bare (.post op e) 20 (ts ++ [postTok op])
  | bin (b : BinOp) (l r : Expr) (pl pr : Bool) (kl kr : Nat) (tl tr : List Tok) :
      b.isAssignment = false → (b = .pow → pl = false → powDisallowed l = false) →
      Sh (leftMin b) l pl kl tl → prec (.bin b) < kl → Sh (rightMin b) r pr kr tr →
      Bare (.binary b l r) (min (rightMin b) kr) (tl ++ binTok b :: tr)
  | assign (b : BinOp) (l r : Expr) (pr : Bool) (kr : Nat) (tl tr : List Tok) :
      b.isAssignment = true → isTarget (l, false) = true →
      Sh (leftMin b) l false 20 tl → Sh (rightMin b) r pr kr tr →
      Bare (.binary b l r) (min (rightMin b) kr) (tl ++ binTok b :: tr)
  | cond (c t f : Expr) (pc pt pf : Bool) (kc kt kf : Nat) (tc tt tf : List Tok) :
      Sh (prec .conditional + 1) c pc kc tc → prec .conditional < kc → Sh 1 t pt kt tt →
      Sh (prec .conditionalAlternate) f pf kf tf →
      Bare (.cond c t f) (min (prec .conditionalAlternate) kf)
        (tc ++ .question :: tt ++ .colon :: tf)
  | call (opt : Bool) (f : Expr) (as : Items) (p : Bool) (tf ta : List Tok) :
      Sh 18 f p 20 tf → Its false as ta →
      Bare (.call opt f as) 20 (tf ++ callTok opt :: ta ++ [.rp])
  | member (opt : Bool) (o : Expr) (n : Nat) (p : Bool) (ts : List Tok) :
      Sh 18 o p 20 ts → Bare (.member opt o n) 20 (ts ++ [dotTok opt, .id n])
  | index (opt : Bool) (o i : Expr) (p pi : Bool) (ki : Nat) (ts ti : List Tok) :
      Sh 18 o p 20 ts → Sh 1 i pi ki ti →
      Bare (.index opt o i) 20 (ts ++ brackTok opt :: ti ++ [.rb])
  | tagged (f : Expr) (n : Nat) (p : Bool) (ts : List Tok) :
      Sh 18 f p 20 ts → Bare (.tagged f n) 20 (ts ++ [.tpl n])
  | arr (es : Items) (te : List Tok) : Its true es te → Bare (.arr es) 20 (.lb :: te ++ [.rb])
  | arrow (n : Nat) (e : Expr) (p : Bool) (k : Nat) (ts : List Tok) :
      Sh 2 e p k ts → (∀ n : Nat, ts.head? ≠ some (.obj n)) →
      Bare (.arrow n e) (min 1 k) (.arrow n :: ts)
/-- Renderings of a constructor: no call outside parentheses. -/
inductive Chain : Expr → List Tok → Prop
  | base (e : Expr) (ts : List Tok) : isBase e = true → Bare e 20 ts → Chain e ts
  | paren (e : Expr) (k : Nat) (ts : List Tok) : Bare e k ts → Chain e (parens ts)
  | member (opt : Bool) (o : Expr) (n : Nat) (ts : List Tok) :
      Chain o ts → Chain (.member opt o n) (ts ++ [dotTok opt, .id n])
  | index (opt : Bool) (o i : Expr) (pi : Bool) (ki : Nat) (ts ti : List Tok) :
      Chain o ts → Sh 1 i pi ki ti →
      Chain (.index opt o i) (ts ++ brackTok opt :: ti ++ [.rb])
/-- Renderings of arguments (`false`) and array elements (`true`, with holes). -/
inductive Its : Bool → Items → List Tok → Prop
  | nil (h : Bool) : Its h .nil []
  | last (h : Bool) (sp : Bool) (e : Expr) (p : Bool) (k : Nat) (ts : List Tok) :
      Sh 2 e p k ts → Its h (.item sp e .nil) ((if sp then [.dots] else []) ++ ts)
  | cons (h : Bool) (sp : Bool) (e : Expr) (rest : Items) (p : Bool) (k : Nat)
      (ts tr : List Tok) :
      Sh 2 e p k ts → Its h rest tr →
      Its h (.item sp e rest) ((if sp then [.dots] else []) ++ ts ++ .comma :: tr)
  | hole (rest : Items) (tr : List Tok) : Its true rest tr → Its true (.hole rest) (.comma :: tr)
end

/-- Terminator lists: tokens that neither start nor continue an expression, the comma and `in`. -/
def TermOK (term : List Tok) : Prop :=
  ∀ t ∈ term, t ∈ [Tok.rp, .rb, .colon, .comma, .semi, .rbrace, .in_]

/-- After a line terminator these tokens do not continue the expression in front of it. -/
def NoJoin : List Tok → Prop
  | [] => True
  | t :: _ => binaryOf t = none ∧ (∀ n : Nat, t ≠ .tpl n) ∧ (∀ n : Nat, t ≠ .regex n) ∧
      (∀ n : Nat, t ≠ .arrow n) ∧ t ≠ .nl ∧ t ≠ .typeof

/-- The parser, going on at precedence `k`, stops in front of these tokens. -/
def StopsAt (term : List Tok) (asi : Bool) (k : Nat) : List Tok → Prop
  | [] => asi = true
  | t :: r => t ∈ term ∨ (asi = true ∧ (t = .rbrace ∨ (t = .nl ∧ NoJoin r))) ∨ (t = .plusplus ∧ 17 < k) ∨
      (t = .minusminus ∧ 17 < k) ∨ ∃ op : Op, binaryOf t = some op ∧ prec op < k

/-- What may follow a rendering with edge `k`. -/
def Follow (term : List Tok) (asi : Bool) (k : Nat) (rest : List Tok) : Prop :=
  19 ≤ k ∨ (StopsAt term asi k rest ∧ (k ≤ 1 → Tok.colon ∈ term → rest.head? = some .colon))

end Verif.Emit
