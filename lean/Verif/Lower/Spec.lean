import Verif.Lower.Syntax
import Verif.Opt.Spec
import Verif.Lin.Spec
/-!
# What the programs mean

Evaluation of expressions and statements as in ECMA-262, over any interpretation of the operations
(`Verif.Opt.Interp`: the result and effect of `+`, of a property access, of a call …).  Exceptions, values
returned and the details of scopes are outside: an operation always gives a value, `return` and `throw` end
the body.
-/

namespace Verif.Lower

open Verif.Il Verif.Opt

/-- The variables, by symbol, and the world. -/
structure St (V W : Type) where
  vars : Nat → V
  world : W

/-- The operation an operator stands for. -/
def ArithOp.means : ArithOp → BinOp
  | .add => .add | .sub => .sub | .mul => .mul | .div => .div | .rem => .mod | .exp => .exp
  | .shl => .shl | .shr => .shr | .ushr => .ushr | .bitOr => .bitOr | .bitAnd => .bitAnd | .bitXor => .bitXor

def CmpOp.means : CmpOp → BinOp
  | .eq => .looseEq | .ne => .notLooseEq | .strictEq => .strictEq | .strictNe => .notStrictEq
  | .lt => .lt | .le => .leq | .gt => .gt | .ge => .geq

def UnaryOp.means : UnaryOp → UnOp
  | .not => .not | .bitNot => .bitNot | .plus => .plus | .minus => .neg | .typeof => .typeof | .void => .void

/-- The positions of arguments with `...`, the first argument being at `k` (callee and `this` come first). -/
def Args.spreads (k : Nat) : Args → List Nat
  | .nil => []
  | .cons true _ rest => k :: rest.spreads (k + 1)
  | .cons false _ rest => rest.spreads (k + 1)

/-- `__optimize_js_new`, the operation for `new`. -/
def newOp : Arg :=
  .builtin [95, 95, 111, 112, 116, 105, 109, 105, 122, 101, 95, 106, 115, 95, 110, 101, 119]

section
variable {V W : Type} (I : Interp V W) (num : V → W → V × W)

def undefinedV : V := I.lit (.const .undefined)

def nullV : V := I.lit (.const .null)

/-- The number 1. -/
def oneV : V := I.lit (.const (.num 4607182418800017408))

/-- An operation. -/
def doOp (o : Opcode) (vs : List V) (s : St V W) : V × St V W :=
  let r := I.op o vs s.world
  (r.1, { s with world := r.2 })

/-- The value of a name: a variable of the body, one shared with other functions, a global, a builtin. -/
def readVar : VarType → St V W → V × St V W
  | .local x, s => (s.vars x, s)
  | .foreign x, s => doOp I (.foreignLoad x) [] s
  | .unknown n, s => doOp I (.unknownLoad n) [] s
  | .builtin n, s => (I.lit (.builtin n), s)

def writeVar : VarType → V → St V W → St V W
  | .local x, v, s => { s with vars := fun y => if y = x then v else s.vars y }
  | .foreign x, v, s => (doOp I (.foreignStore x) [v] s).2
  | .unknown n, v, s => (doOp I (.unknownStore n) [v] s).2
  | .builtin _, _, s => s

/-- Whether a value is `null` or `undefined`: the loose comparison with `null`. -/
def nullish (v : V) (s : St V W) : Bool × St V W :=
  let r := doOp I (.bin .looseEq) [v, nullV I] s
  (I.truthy r.1, r.2)

/-- Whether the right operand of a logical operator is evaluated. -/
def goesOn : LogOp → V → St V W → Bool × St V W
  | .and, v, s => (I.truthy v, s)
  | .or, v, s => (!I.truthy v, s)
  | .nullish, v, s => nullish I v s

/-- A result that is not a reference to a property: for a call, `this` is undefined. -/
def plain (r : V × St V W) : Option (V × V) × St V W := (some (undefinedV I, r.1), r.2)

/-- The value of a reference; undefined for a chain that was cut short by `?.`. -/
def value (r : Option (V × V) × St V W) : V × St V W :=
  match r with
  | (some (_, v), s) => (v, s)
  | (none, s) => (undefinedV I, s)

mutual
/-- Evaluation of an expression: `this` for a call, and the value; nothing if an optional chain was cut
short. -/
def ref : Expr → St V W → Option (V × V) × St V W
  | .lit c, s => plain I (I.lit (.const c), s)
  | .builtin n, s => plain I (I.lit (.builtin n), s)
  | .fn id, s => plain I (I.lit (.fn id), s)
  | .ident x, s => plain I (readVar I x s)
  | .unary op e, s =>
    let a := match op, e with
      | .typeof, .ident (.unknown n) => (I.lit (.builtin n), s)
      | _, _ => value I (ref e s)
    plain I (doOp I (.un op.means) [a.1] a.2)
  | .arith op l r, s =>
    let a := value I (ref l s)
    let b := value I (ref r a.2)
    plain I (doOp I (.bin op.means) [a.1, b.1] b.2)
  | .cmp op l r, s =>
    let a := value I (ref l s)
    let b := value I (ref r a.2)
    plain I (doOp I (.bin op.means) [a.1, b.1] b.2)
  | .log op l r, s =>
    let a := value I (ref l s)
    let g := goesOn I op a.1 a.2
    if g.1 then plain I (value I (ref r g.2)) else plain I (a.1, g.2)
  | .comma l r, s =>
    let a := value I (ref l s)
    plain I (value I (ref r a.2))
  | .cond c t f, s =>
    let a := value I (ref c s)
    if I.truthy a.1 then plain I (value I (ref t a.2)) else plain I (value I (ref f a.2))
  | .update inc pre (.ident x), s =>
    let old := readVar I x s
    let n := num old.1 old.2.world
    let r := doOp I (.bin (if inc then .add else .sub)) [n.1, oneV I] { old.2 with world := n.2 }
    plain I (if pre then r.1 else n.1, writeVar I x r.1 r.2)
  | .update inc pre (.member o k _), s =>
    let a := value I (ref o s)
    let b := value I (ref k a.2)
    let old := doOp I (.bin .getProp) [a.1, b.1] b.2
    let n := num old.1 old.2.world
    let r := doOp I (.bin (if inc then .add else .sub)) [n.1, oneV I] { old.2 with world := n.2 }
    plain I (if pre then r.1 else n.1, (doOp I .propAssign [a.1, b.1, r.1] r.2).2)
  | .update _ _ e, s => plain I (value I (ref e s))
  | .assign op x e, s =>
    match op with
    | .plain =>
      let a := value I (ref e s)
      plain I (a.1, writeVar I x a.1 a.2)
    | .arith op =>
      let old := readVar I x s
      let a := value I (ref e old.2)
      let r := doOp I (.bin op.means) [old.1, a.1] a.2
      plain I (r.1, writeVar I x r.1 r.2)
    | .log op =>
      let old := readVar I x s
      let g := goesOn I op old.1 old.2
      if g.1 then
        let a := value I (ref e g.2)
        plain I (a.1, writeVar I x a.1 a.2)
      else plain I (old.1, g.2)
  | .assignMember op o k e, s =>
    let a := value I (ref o s)
    let b := value I (ref k a.2)
    match op with
    | .plain =>
      let d := value I (ref e b.2)
      plain I (d.1, (doOp I .propAssign [a.1, b.1, d.1] d.2).2)
    | .arith op =>
      let old := doOp I (.bin .getProp) [a.1, b.1] b.2
      let d := value I (ref e old.2)
      let r := doOp I (.bin op.means) [old.1, d.1] d.2
      plain I (r.1, (doOp I .propAssign [a.1, b.1, r.1] r.2).2)
    | .log op =>
      let old := doOp I (.bin .getProp) [a.1, b.1] b.2
      let g := goesOn I op old.1 old.2
      if g.1 then
        let d := value I (ref e g.2)
        plain I (d.1, (doOp I .propAssign [a.1, b.1, d.1] d.2).2)
      else plain I (old.1, g.2)
  | .member o k optional, s =>
    match ref o s with
    | (none, s) => (none, s)
    | (some (_, a), s) =>
      let n := if optional then nullish I a s else (false, s)
      if n.1 then (none, n.2)
      else
        let b := value I (ref k n.2)
        let r := doOp I (.bin .getProp) [a, b.1] b.2
        (some (a, r.1), r.2)
  | .call c as optional, s =>
    match ref c s with
    | (none, s) => (none, s)
    | (some (this, f), s) =>
      let n := if optional then nullish I f s else (false, s)
      if n.1 then (none, n.2)
      else
        let vs := argVals as n.2
        plain I (doOp I (.call (as.spreads 2)) (f :: this :: vs.1) vs.2)
  | .new c as, s =>
    let a := value I (ref c s)
    let vs := argVals as a.2
    plain I (doOp I (.call (as.spreads 2)) (I.lit newOp :: a.1 :: vs.1) vs.2)
  | .internal n as, s =>
    let vs := argVals as s
    plain I (doOp I (.call (as.spreads 2)) (I.lit (.builtin n) :: undefinedV I :: vs.1) vs.2)

/-- Arguments from left to right. -/
def argVals : Args → St V W → List V × St V W
  | .nil, s => ([], s)
  | .cons _ e rest, s =>
    let a := value I (ref e s)
    let vs := argVals rest a.2
    (a.1 :: vs.1, vs.2)
end

/-- The value of an expression. -/
def eval (e : Expr) (s : St V W) : V × St V W := value I (ref I num e s)

end

/-- How a statement ends. -/
inductive Completion where
  | normal
  | brk (l : Option Nat)
  | cont (l : Option Nat)
  | ret
deriving DecidableEq, Repr

/-- The end of a statement, or the state when a loop has used up its iterations. -/
inductive Res (V W : Type) where
  | done (c : Completion) (s : St V W)
  | more (s : St V W)

section
variable {V W : Type} (I : Interp V W) (num : V → W → V × W)

/-- At most `n` iterations. -/
def loop (step : St V W → Res V W ⊕ St V W) : Nat → St V W → Res V W
  | 0, s => .more s
  | n + 1, s =>
    match step s with
    | .inl r => r
    | .inr s => loop step n s

/-- What the completion of the body means for a loop with labels `ls`: go on, or end. -/
def afterBody (ls : List Nat) : Res V W → Res V W ⊕ St V W
  | .done .normal s => .inr s
  | .done (.cont none) s => .inr s
  | .done (.cont (some l)) s => if l ∈ ls then .inr s else .inl (.done (.cont (some l)) s)
  | .done (.brk none) s => .inl (.done .normal s)
  | r => .inl r

/-- A condition that may be missing. -/
def test (c : Option Expr) (s : St V W) : Bool × St V W :=
  match c with
  | none => (true, s)
  | some e => (I.truthy (eval I num e s).1, (eval I num e s).2)

/-- The state after an expression that may be missing. -/
def effect (c : Option Expr) (s : St V W) : St V W :=
  match c with
  | none => s
  | some e => (eval I num e s).2

/-- The clause of a `switch` whose test equals `v`, tests being evaluated in order. -/
def pick (v : V) : Cases → St V W → Option Nat × St V W
  | .nil, s => (none, s)
  | .cons none _ cs, s =>
    let r := pick v cs s
    (r.1.map (· + 1), r.2)
  | .cons (some e) _ cs, s =>
    let a := eval I num e s
    let r := doOp I (.bin .strictEq) [v, a.1] a.2
    if I.truthy r.1 then (some 0, r.2)
    else
      let q := pick v cs r.2
      (q.1.map (· + 1), q.2)

/-- The position of the `default` clause; the number of clauses if there is none. -/
def Cases.defaultOr : Cases → Nat
  | .nil => 0
  | .cons none _ _ => 0
  | .cons (some _) _ cs => cs.defaultOr + 1

mutual
/-- Execution of a statement with labels `ls`; `fuel` is the number of iterations that every loop may take. -/
def execS (fuel : Nat) : Stmt → List Nat → St V W → Res V W
  | .expr e, _, s => .done .normal (eval I num e s).2
  | .empty, _, s => .done .normal s
  | .decl kind x init, _, s =>
    match init, kind with
    | some e, _ => let a := eval I num e s; .done .normal (writeVar I x a.1 a.2)
    | none, .let_ => .done .normal (writeVar I x (undefinedV I) s)
    | none, _ => .done .normal s
  | .block ss, _, s => execSs fuel ss s
  | .ifThen c t, _, s =>
    let a := eval I num c s
    if I.truthy a.1 then execS fuel t [] a.2 else .done .normal a.2
  | .ifElse c t f, _, s =>
    let a := eval I num c s
    if I.truthy a.1 then execS fuel t [] a.2 else execS fuel f [] a.2
  | .while_ c b, ls, s =>
    loop (fun s =>
      let a := eval I num c s
      if I.truthy a.1 then afterBody ls (execS fuel b [] a.2) else .inl (.done .normal a.2)) fuel s
  | .doWhile b c, ls, s =>
    loop (fun s =>
      match afterBody ls (execS fuel b [] s) with
      | .inl r => .inl r
      | .inr s =>
        let a := eval I num c s
        if I.truthy a.1 then .inr a.2 else .inl (.done .normal a.2)) fuel s
  | .for_ init c post b, ls, s =>
    match execS fuel init [] s with
    | .done .normal s =>
      loop (fun s =>
        let t := test I num c s
        if t.1 then
          match afterBody ls (execS fuel b [] t.2) with
          | .inl r => .inl r
          | .inr s => .inr (effect I num post s)
        else .inl (.done .normal t.2)) fuel s
    | r => r
  | .switch d cs, _, s =>
    let a := eval I num d s
    let p := pick I num a.1 cs a.2
    match execCs fuel cs (p.1.getD cs.defaultOr) p.2 with
    | .done (.brk none) s => .done .normal s
    | r => r
  | .brk l, _, s => .done (.brk l) s
  | .cont l, _, s => .done (.cont l) s
  | .labeled l b, ls, s =>
    match execS fuel b (l :: ls) s with
    | .done (.brk (some m)) s => if m = l then .done .normal s else .done (.brk (some m)) s
    | r => r
  | .ret e, _, s => .done .ret (effect I num e s)
  | .throw e, _, s => .done .ret (eval I num e s).2

def execSs (fuel : Nat) : Stmts → St V W → Res V W
  | .nil, s => .done .normal s
  | .cons t ss, s =>
    match execS fuel t [] s with
    | .done .normal s => execSs fuel ss s
    | r => r

/-- The clauses from number `k` on. -/
def execCs (fuel : Nat) : Cases → Nat → St V W → Res V W
  | .nil, _, s => .done .normal s
  | .cons _ b cs, 0, s =>
    match execSs fuel b s with
    | .done .normal s => execCs fuel cs 0 s
    | r => r
  | .cons _ _ cs, k + 1, s => execCs fuel cs k s
end

/-- A body: the variables declared with `var` (in some order `vs`) are undefined at first. -/
def runBody (fuel : Nat) (vs : List VarType) (b : Body) (s : St V W) : Res V W :=
  execSs I num fuel b.stmts (vs.foldl (fun s x => writeVar I x (undefinedV I) s) s)

end

/-- `vs` lists the names declared with `var` that are not parameters, by symbol. -/
structure Hoisted (b : Body) (vs : List VarType) : Prop where
  sorted : vs.Pairwise (fun x y => x.symbol.getD 0 ≤ y.symbol.getD 0)
  once : vs.Nodup
  mem : ∀ x, x ∈ vs ↔ x ∈ b.stmts.varNames ∧ ∃ s, x.symbol = some s ∧ s ∉ b.params

/-- A symbol is used from another function or it is not: `classify_symbol`, il/s2i/mod.rs 101–109. -/
def Body.oneClass (b : Body) : Prop :=
  ∀ x ∈ b.stmts.varNames, ∀ y ∈ b.stmts.varNames, x.symbol = y.symbol → x = y

/-!
## The programs for which the translation is right

The translation reads a local variable that is an operand when the operation is performed, not when the operand
is evaluated; it loads the old value of a shared or global variable, or of a property, in `x += e` after `e`;
and it stores the result of `++` and `--` only in local variables.
-/

mutual
/-- Whether local variable `x` may be assigned in an expression. -/
def Expr.assigns (x : Nat) : Expr → Bool
  | .lit _ | .builtin _ | .fn _ | .ident _ => false
  | .unary _ e => e.assigns x
  | .arith _ l r | .cmp _ l r | .log _ l r | .comma l r => l.assigns x || r.assigns x
  | .cond c t f => c.assigns x || t.assigns x || f.assigns x
  | .update _ _ e => e.assigns x || (match e with
    | .ident (.local y) => y == x
    | _ => false)
  | .assign _ y e => e.assigns x || y == .local x
  | .assignMember _ o k e => o.assigns x || k.assigns x || e.assigns x
  | .member o k _ => o.assigns x || k.assigns x
  | .call c as _ => c.assigns x || as.assigns x
  | .new c as => c.assigns x || as.assigns x
  | .internal _ as => as.assigns x
def Args.assigns (x : Nat) : Args → Bool
  | .nil => false
  | .cons _ e rest => e.assigns x || rest.assigns x
end

/-- The local variable whose value is read only when the expression is used. -/
def Expr.late : Expr → Option Nat
  | .ident (.local x) => some x
  | .comma _ r => r.late
  | .update _ true e => e.late
  | _ => none

/-- The same for `this` of a call. -/
def Expr.lateThis : Expr → Option Nat
  | .member o _ _ => o.late
  | _ => none

/-- Nothing that is read late is assigned. -/
def spared (late : Option Nat) (e : Expr) : Bool :=
  match late with
  | some x => !e.assigns x
  | none => true

def sparedA (late : Option Nat) (as : Args) : Bool :=
  match late with
  | some x => !as.assigns x
  | none => true

/-- An expression whose evaluation does nothing. -/
def Expr.quiet : Expr → Bool
  | .lit _ | .builtin _ | .fn _ | .ident (.local _) | .ident (.builtin _) => true
  | _ => false

mutual
/-- `upd`: whether `++` and `--` may occur. -/
def Expr.ordered (upd : Bool) : Expr → Bool
  | .lit _ | .builtin _ | .fn _ | .ident _ => true
  | .unary _ e => e.ordered upd
  | .arith _ l r | .cmp _ l r => l.ordered upd && r.ordered upd && spared l.late r
  | .log _ l r | .comma l r => l.ordered upd && r.ordered upd
  | .cond c t f => c.ordered upd && t.ordered upd && f.ordered upd
  | .update _ _ (.ident (.local _)) => upd
  | .update _ _ _ => false
  | .assign (.arith _) (.local x) e => e.ordered upd && !e.assigns x
  | .assign (.arith _) _ e => e.quiet
  | .assign _ _ e => e.ordered upd
  | .assignMember (.arith _) o k e => o.ordered upd && k.ordered upd && spared o.late k && e.quiet
  | .assignMember _ o k e =>
    o.ordered upd && k.ordered upd && e.ordered upd && spared o.late k && spared o.late e && spared k.late e
  | .member o k _ => o.ordered upd && k.ordered upd && spared o.late k
  | .call c as _ => c.ordered upd && as.ordered upd && sparedA c.late as && sparedA c.lateThis as
  | .new c as => c.ordered upd && as.ordered upd && sparedA c.late as
  | .internal _ as => as.ordered upd
def Args.ordered (upd : Bool) : Args → Bool
  | .nil => true
  | .cons _ e rest => e.ordered upd && rest.ordered upd && sparedA e.late rest
end

/-- For an expression that may be missing. -/
def orderedOpt (upd : Bool) : Option Expr → Bool
  | none => true
  | some e => e.ordered upd

mutual
/-- What may stand first in the parentheses of a `for`: an expression, or declarations. -/
def Stmt.isInit : Stmt → Bool
  | .expr _ | .empty | .decl _ _ _ => true
  | .block ss => ss.isInit
  | _ => false
def Stmts.isInit : Stmts → Bool
  | .nil => true
  | .cons s ss => s.isInit && ss.isInit
end

mutual
def Stmt.ordered (upd : Bool) : Stmt → Bool
  | .expr e | .throw e => e.ordered upd
  | .empty | .brk _ | .cont _ => true
  | .decl _ _ e | .ret e => orderedOpt upd e
  | .block ss => ss.ordered upd
  | .ifThen c t => c.ordered upd && t.ordered upd
  | .ifElse c t f => c.ordered upd && t.ordered upd && f.ordered upd
  | .while_ c b | .doWhile b c => c.ordered upd && b.ordered upd
  | .for_ i c p b => i.isInit && i.ordered upd && orderedOpt upd c && orderedOpt upd p && b.ordered upd
  | .switch d cs => d.ordered upd && cs.ordered upd
  | .labeled _ b => b.ordered upd
def Stmts.ordered (upd : Bool) : Stmts → Bool
  | .nil => true
  | .cons s ss => s.ordered upd && ss.ordered upd
def Cases.ordered (upd : Bool) : Cases → Bool
  | .nil => true
  | .cons e b cs => orderedOpt upd e && b.ordered upd && cs.ordered upd
end

end Verif.Lower
