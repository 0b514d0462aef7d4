import Verif.Stmts.Model

/-!
# What a body does

A meaning of statements after ECMA-262, over a machine that is left open: what expressions,
declarations and iterators do, what a scope is and what the state holds is up to the machine. A
body is set up from what it declares (`Header`) and then run. Only the syntax of statements is
taken from the model.
-/

namespace Verif.Stmts

/-! ## Declared names -/

mutual
/-- BoundNames of a pattern. -/
def bound : Pat → List String
  | .id x => [x]
  | .many ps => bounds ps
  | .target _ => []
/-- BoundNames of patterns. -/
def bounds : List Pat → List String
  | [] => []
  | p :: rest => bound p ++ bounds rest
end

/-- BoundNames of declarators. -/
def boundDecls : List Declarator → List String
  | [] => []
  | d :: rest => bound d.pat ++ boundDecls rest

mutual
/-- VarDeclaredNames: the names that a statement declares in the variable scope around it. A
function in a block that also has a `var` binding (Annex B.3.2) declares its name. -/
def vars : Stmt → List String
  | .decl _ m ds => if m = .var then boundDecls ds else []
  | .func x _ annexB => if annexB then [x] else []
  | .for (.decl .var ds) _ _ _ body => boundDecls ds ++ varss body
  | .for _ _ _ _ body => varss body
  | .each _ (.decl .var p) _ _ body => bound p ++ varss body
  | .each _ _ _ _ body => varss body
  | .block body => varss body
  | .ifThen _ t => vars t
  | .ifElse _ t e => vars t ++ vars e
  | .while _ body => vars body
  | .doWhile body _ => vars body
  | .switch _ _ bodies => varsss bodies
  | .tries body hasCatch _ handler hasFinally last =>
      varss body ++ (if hasCatch then varss handler else []) ++
        (if hasFinally then varss last else [])
  | .withs _ body => vars body
  | .label _ body => vars body
  | _ => []
/-- VarDeclaredNames of a list. -/
def varss : List Stmt → List String
  | [] => []
  | st :: rest => vars st ++ varss rest
/-- VarDeclaredNames of lists. -/
def varsss : List (List Stmt) → List String
  | [] => []
  | b :: rest => varss b ++ varsss rest
end

/-- A declaration of a scope: a variable, a class or a function. -/
inductive Lex
  | name (m : Mode) (x : String)
  | cls (x : String) (id : Nat)
  | func (x : String) (id : Nat)
deriving DecidableEq, Repr

/-- LexicallyScopedDeclarations of one statement of a list. -/
def lex : Stmt → List Lex
  | .decl _ m ds => if m = .var then [] else (boundDecls ds).map (.name m)
  | .func x id _ => [.func x id]
  | .cls x id => [.cls x id]
  | .label _ body => lex body
  | _ => []

/-- LexicallyScopedDeclarations of a list. -/
def lexs (l : List Stmt) : List Lex := l.flatMap lex

/-- An import or export of a module. -/
inductive Link
  | item (id : Nat)
  | exported (x : String)
deriving DecidableEq, Repr

/-- What a statement of a module adds to its imports and exports. -/
def links : Stmt → List Link
  | .item id => [.item id]
  | .decl true _ ds => (boundDecls ds).map .exported
  | _ => []

/-- The imports and exports of a module. -/
def linkss (l : List Stmt) : List Link := l.flatMap links

/-- An expression statement that is a string literal, without parentheses. -/
def Directive (s : String) : Stmt := .expr (.lit false (.str s))

/-- The directives at the start of a body contain `"use strict"`. -/
def UsesStrict (body : List Stmt) : Prop :=
  ∃ pro rest, body = pro ++ Directive "use strict" :: rest ∧ ∀ st ∈ pro, ∃ s, st = Directive s

/-- What a body is set up from. -/
structure Header where
  strict : Prop
  vars : String → Prop
  lex : List Lex
  links : List Link

/-- The header of a body; `inherited` says that the code around it is strict. -/
def header (inherited : Bool) (body : List Stmt) : Header where
  strict := inherited = true ∨ UsesStrict body
  vars := fun x => x ∈ varss body
  lex := lexs body
  links := linkss body

/-! ## The machine -/

/-- ToBoolean of a literal. -/
def Lit.toBoolean : Lit → Bool
  | .bool b => b
  | .null => false
  | .num .nan => false
  | .num .zero => false
  | .num (.other _) => true
  | .str s => s ≠ ""
  | .bigint n => n ≠ 0

/-- Completions of statements. -/
inductive Compl (V : Type)
  | normal
  | brk (l : Option String)
  | cont (l : Option String)
  | ret (v : Option V)
  | throw (v : V)

/-- What an expression comes to. -/
inductive Out (V : Type)
  | val (v : V)
  | throw (v : V)

/-- One step of an iteration. -/
inductive Step (V : Type)
  | done
  | next
  | throw (v : V)

/-- A machine with states `σ` and values `V`. An operation relates the state before to the state
after; `Option V` is a thrown value, if one is thrown. -/
structure Machine (σ V : Type) where
  /-- An expression. -/
  eval : Nat → σ → σ → Out V → Prop
  /-- A literal. -/
  lit : Lit → V
  /-- ToBoolean. -/
  truthy : V → Bool
  truthy_lit : ∀ l, truthy (lit l) = l.toBoolean
  /-- IsStrictlyEqual. -/
  same : V → V → Bool
  /-- A statement such as `debugger`. -/
  other : Nat → σ → σ → Compl V → Prop
  /-- One declarator, other than a `var` without initializer. -/
  declare : Mode → Declarator → σ → σ → Option V → Prop
  /-- Evaluation of a function declaration (Annex B.3.2). -/
  func : String → Nat → Bool → σ → σ → Prop
  /-- Evaluation of a class declaration. -/
  cls : String → Nat → σ → σ → Option V → Prop
  /-- Evaluation of an import or export. -/
  item : Nat → σ → σ → Option V → Prop
  /-- BlockDeclarationInstantiation in a new scope. -/
  enter : List Lex → σ → σ → Prop
  /-- Leaving that scope; the first state is the one before it. `using` may throw here. -/
  leave : List Lex → σ → σ → Compl V → σ → Compl V → Prop
  /-- Leaving a scope does not make an abrupt completion normal. -/
  leave_abrupt : ∀ lx s s1 k s2 k', leave lx s s1 k s2 k' → k ≠ .normal → k' ≠ .normal
  /-- The scope of the head of a `for`. -/
  forEnter : ForInit → σ → σ → Prop
  /-- CreatePerIterationEnvironment. -/
  forCopy : ForInit → σ → σ → Prop
  forLeave : ForInit → σ → σ → Compl V → σ → Compl V → Prop
  /-- ForIn/OfHeadEvaluation, with the head and the value of the expression. -/
  eachOpen : Nat → ForLhs → Expr → σ → σ → Out V → Prop
  /-- The next value, bound to the head. -/
  eachStep : Nat → ForLhs → V → σ → σ → Step V → Prop
  /-- The end of one iteration: its scope is left, and if its body ends the loop the iterator is
  closed. -/
  eachLeave : Nat → ForLhs → V → σ → σ → Compl V → σ → Compl V → Prop
  /-- The scope of `with`. -/
  withEnter : V → σ → σ → Option V → Prop
  withLeave : σ → σ → Compl V → σ → Compl V → Prop
  /-- The scope of a `catch`, with its parameter bound. -/
  catchEnter : Option Pat → V → σ → σ → Option V → Prop
  catchLeave : Option Pat → σ → σ → Compl V → σ → Compl V → Prop
  /-- Set-up of a body: FunctionDeclarationInstantiation and the like. -/
  start : Header → σ → σ → Option V → Prop

variable {σ V : Type}

/-- Evaluation of expressions. -/
inductive Eval (m : Machine σ V) : Expr → σ → σ → Out V → Prop
  | lit {p l s} : Eval m (.lit p l) s s (.val (m.lit l))
  | other {id s s' r} : m.eval id s s' r → Eval m (.other id) s s' r
  | andThrow {a b s s' v} : Eval m a s s' (.throw v) → Eval m (.and a b) s s' (.throw v)
  | andFalse {a b s s' v} : Eval m a s s' (.val v) → m.truthy v = false →
      Eval m (.and a b) s s' (.val v)
  | andTrue {a b s s1 s' v r} : Eval m a s s1 (.val v) → m.truthy v = true →
      Eval m b s1 s' r → Eval m (.and a b) s s' r
  | condThrow {c a b s s' v} : Eval m c s s' (.throw v) → Eval m (.cond c a b) s s' (.throw v)
  | condTrue {c a b s s1 s' v r} : Eval m c s s1 (.val v) → m.truthy v = true →
      Eval m a s1 s' r → Eval m (.cond c a b) s s' r
  | condFalse {c a b s s1 s' v r} : Eval m c s s1 (.val v) → m.truthy v = false →
      Eval m b s1 s' r → Eval m (.cond c a b) s s' r

/-- The test of a `for`, which may be missing. -/
inductive Test (m : Machine σ V) : Option Expr → σ → σ → Except V Bool → Prop
  | none {s} : Test m none s s (.ok true)
  | val {e s s' v} : Eval m e s s' (.val v) → Test m (some e) s s' (.ok (m.truthy v))
  | throw {e s s' v} : Eval m e s s' (.throw v) → Test m (some e) s s' (.error v)

/-- Which branch of a `switch` the value picks: the first of an equal test, or none. -/
inductive Pick (m : Machine σ V) (v : V) : List (Option Expr) → σ → σ → Except V (Option Nat) → Prop
  | nil {s} : Pick m v [] s s (.ok none)
  | default {rest s s' r} : Pick m v rest s s' r →
      Pick m v (none :: rest) s s' (r.map (·.map (· + 1)))
  | hit {e rest s s' w} : Eval m e s s' (.val w) → m.same v w = true →
      Pick m v (some e :: rest) s s' (.ok (some 0))
  | miss {e rest s s1 s' w r} : Eval m e s s1 (.val w) → m.same v w = false →
      Pick m v rest s1 s' r → Pick m v (some e :: rest) s s' (r.map (·.map (· + 1)))
  | throw {e rest s s' w} : Eval m e s s' (.throw w) → Pick m v (some e :: rest) s s' (.error w)

/-- The branch where a `switch` starts. -/
def startAt (tests : List (Option Expr)) : Option Nat → Option Nat
  | some i => some i
  | none => tests.findIdx? (·.isNone)

/-- The statements a `switch` runs from a branch on, one body after the other. -/
def from_ (bodies : List (List Stmt)) : Option Nat → List Stmt
  | some i => (bodies.drop i).flatten
  | none => []

/-- A new scope, if there is something to declare in it. -/
def Enter (m : Machine σ V) (lx : List Lex) (s s' : σ) : Prop :=
  (lx = [] ∧ s' = s) ∨ (lx ≠ [] ∧ m.enter lx s s')

/-- Leaving it. -/
def Leave (m : Machine σ V) (lx : List Lex) (s s1 : σ) (k : Compl V) (s2 : σ) (k' : Compl V) :
    Prop :=
  (lx = [] ∧ s2 = s1 ∧ k' = k) ∨ (lx ≠ [] ∧ m.leave lx s s1 k s2 k')

/-- LoopContinues. -/
def Compl.again (ls : List String) : Compl V → Bool
  | .normal => true
  | .cont none => true
  | .cont (some l) => l ∈ ls
  | _ => false

/-- What a loop or a `switch` makes of a break without a label. -/
def Compl.exit : Compl V → Compl V
  | .brk none => .normal
  | k => k

/-- What a label makes of a break to it. -/
def Compl.unlabel (l : String) : Compl V → Compl V
  | .brk (some l') => if l' = l then .normal else .brk (some l')
  | k => k

/-- `UpdateEmpty`: a `finally` that completes normally leaves the completion before it. -/
def Compl.orElse (k : Compl V) : Compl V → Compl V
  | .normal => k
  | k' => k'

/-- The completion of a step that may throw. -/
def thrown : Option V → Compl V
  | none => .normal
  | some v => .throw v

/-- The branch of an `if`: a function there stands in a block of its own (Annex B.3.3). -/
def branch : Stmt → Stmt
  | .func x id b => .block [.func x id b]
  | st => st

/-- What there is to run: a statement with its labels, a list, declarators, or what is left of a
loop. -/
inductive Task
  | stmt (ls : List String) (st : Stmt)
  | list (l : List Stmt)
  | decls (mode : Mode) (ds : List Declarator)
  | init (i : ForInit)
  | while (ls : List String) (c : Expr) (body : Stmt)
  | for (ls : List String) (i : ForInit) (test update : Option Expr) (body : List Stmt)
  | each (ls : List String) (kind : Nat) (lhs : ForLhs) (it : V) (body : List Stmt)
  | guarded (body : List Stmt) (hasCatch : Bool) (param : Option Pat) (handler : List Stmt)

/-- Running. The branches of an `if` get the labels of the `if`; ECMA-262 gives them none, but a
program in which that matters continues at a label that is not a loop's, which is an error. -/
inductive Run (m : Machine σ V) : Task (V := V) → σ → Compl V → σ → Prop
  | nil {s} : Run m (.list []) s .normal s
  | cons {st rest s s1 k s2} : Run m (.stmt [] st) s .normal s1 → Run m (.list rest) s1 k s2 →
      Run m (.list (st :: rest)) s k s2
  | stop {st rest s k s1} : Run m (.stmt [] st) s k s1 → k ≠ .normal →
      Run m (.list (st :: rest)) s k s1
  | declsNil {md s} : Run m (.decls md []) s .normal s
  | declsSkip {d rest s k s1} : d.init = none → Run m (.decls .var rest) s k s1 →
      Run m (.decls .var (d :: rest)) s k s1
  | declsCons {md d rest s s1 k s2} : ¬ (md = .var ∧ d.init = none) → m.declare md d s s1 none →
      Run m (.decls md rest) s1 k s2 → Run m (.decls md (d :: rest)) s k s2
  | declsThrow {md d rest s s1 v} : ¬ (md = .var ∧ d.init = none) →
      m.declare md d s s1 (some v) → Run m (.decls md (d :: rest)) s (.throw v) s1
  | empty {ls s} : Run m (.stmt ls .empty) s .normal s
  | expr {ls e s s1 v} : Eval m e s s1 (.val v) → Run m (.stmt ls (.expr e)) s .normal s1
  | exprThrow {ls e s s1 v} : Eval m e s s1 (.throw v) → Run m (.stmt ls (.expr e)) s (.throw v) s1
  | other {ls id s k s1} : m.other id s s1 k → Run m (.stmt ls (.other id)) s k s1
  | retNone {ls s} : Run m (.stmt ls (.ret none)) s (.ret none) s
  | ret {ls e s s1 v} : Eval m e s s1 (.val v) → Run m (.stmt ls (.ret (some e))) s (.ret v) s1
  | retThrow {ls e s s1 v} : Eval m e s s1 (.throw v) →
      Run m (.stmt ls (.ret (some e))) s (.throw v) s1
  | throw {ls e s s1 v} : Eval m e s s1 (.val v) ∨ Eval m e s s1 (.throw v) →
      Run m (.stmt ls (.throw e)) s (.throw v) s1
  | brk {ls l s} : Run m (.stmt ls (.brk l)) s (.brk l) s
  | cont {ls l s} : Run m (.stmt ls (.cont l)) s (.cont l) s
  | block {ls l s s0 k s1 k' s2} : Enter m (lexs l) s s0 → Run m (.list l) s0 k s1 →
      Leave m (lexs l) s s1 k s2 k' → Run m (.stmt ls (.block l)) s k' s2
  | ifThrow {ls c t s s1 v} : Eval m c s s1 (.throw v) →
      Run m (.stmt ls (.ifThen c t)) s (.throw v) s1
  | ifTrue {ls c t s s1 v k s2} : Eval m c s s1 (.val v) → m.truthy v = true →
      Run m (.stmt ls (branch t)) s1 k s2 → Run m (.stmt ls (.ifThen c t)) s k s2
  | ifFalse {ls c t s s1 v} : Eval m c s s1 (.val v) → m.truthy v = false →
      Run m (.stmt ls (.ifThen c t)) s .normal s1
  | elseThrow {ls c t e s s1 v} : Eval m c s s1 (.throw v) →
      Run m (.stmt ls (.ifElse c t e)) s (.throw v) s1
  | elseTrue {ls c t e s s1 v k s2} : Eval m c s s1 (.val v) → m.truthy v = true →
      Run m (.stmt ls (branch t)) s1 k s2 → Run m (.stmt ls (.ifElse c t e)) s k s2
  | elseFalse {ls c t e s s1 v k s2} : Eval m c s s1 (.val v) → m.truthy v = false →
      Run m (.stmt ls (branch e)) s1 k s2 → Run m (.stmt ls (.ifElse c t e)) s k s2
  | while {ls c b s k s1} : Run m (.while ls c b) s k s1 → Run m (.stmt ls (.while c b)) s k s1
  | doNext {ls c b s k s1 k' s2} : Run m (.stmt [] b) s k s1 → k.again ls = true →
      Run m (.while ls c b) s1 k' s2 → Run m (.stmt ls (.doWhile b c)) s k' s2
  | doExit {ls c b s k s1} : Run m (.stmt [] b) s k s1 → k.again ls = false →
      Run m (.stmt ls (.doWhile b c)) s k.exit s1
  | whileThrow {ls c b s s1 v} : Eval m c s s1 (.throw v) → Run m (.while ls c b) s (.throw v) s1
  | whileDone {ls c b s s1 v} : Eval m c s s1 (.val v) → m.truthy v = false →
      Run m (.while ls c b) s .normal s1
  | whileNext {ls c b s s1 v k s2 k' s3} : Eval m c s s1 (.val v) → m.truthy v = true →
      Run m (.stmt [] b) s1 k s2 → k.again ls = true → Run m (.while ls c b) s2 k' s3 →
      Run m (.while ls c b) s k' s3
  | whileExit {ls c b s s1 v k s2} : Eval m c s s1 (.val v) → m.truthy v = true →
      Run m (.stmt [] b) s1 k s2 → k.again ls = false → Run m (.while ls c b) s k.exit s2
  | initNone {s} : Run m (.init .none) s .normal s
  | initExpr {e s k s1} : Run m (.stmt [] (.expr e)) s k s1 → Run m (.init (.expr e)) s k s1
  | initDecl {md ds s k s1} : Run m (.decls md ds) s k s1 → Run m (.init (.decl md ds)) s k s1
  | for {ls i t u br b s s0 s1 s2 k s3 k' s4} : m.forEnter i s s0 →
      Run m (.init i) s0 .normal s1 → m.forCopy i s1 s2 → Run m (.for ls i t u b) s2 k s3 →
      m.forLeave i s s3 k s4 k' → Run m (.stmt ls (.for i t u br b)) s k' s4
  | forInit {ls i t u br b s s0 k s1 k' s2} : m.forEnter i s s0 → Run m (.init i) s0 k s1 →
      k ≠ .normal → m.forLeave i s s1 k s2 k' → Run m (.stmt ls (.for i t u br b)) s k' s2
  | forThrow {ls i t u b s s1 v} : Test m t s s1 (.error v) → Run m (.for ls i t u b) s (.throw v) s1
  | forDone {ls i t u b s s1} : Test m t s s1 (.ok false) → Run m (.for ls i t u b) s .normal s1
  | forExit {ls i t u b s s1 k s2} : Test m t s s1 (.ok true) → Run m (.stmt [] (.block b)) s1 k s2 →
      k.again ls = false → Run m (.for ls i t u b) s k.exit s2
  | forNext {ls i t u b s s1 k s2 s3 x s4 k' s5} : Test m t s s1 (.ok true) →
      Run m (.stmt [] (.block b)) s1 k s2 → k.again ls = true → m.forCopy i s2 s3 →
      Test m u s3 s4 (.ok x) → Run m (.for ls i t u b) s4 k' s5 → Run m (.for ls i t u b) s k' s5
  | forUpdate {ls i t u b s s1 k s2 s3 s4 v} : Test m t s s1 (.ok true) →
      Run m (.stmt [] (.block b)) s1 k s2 → k.again ls = true → m.forCopy i s2 s3 →
      Test m u s3 s4 (.error v) → Run m (.for ls i t u b) s (.throw v) s4
  | each {ls kd lhs e br b s s1 it k s2} : m.eachOpen kd lhs e s s1 (.val it) →
      Run m (.each ls kd lhs it b) s1 k s2 → Run m (.stmt ls (.each kd lhs e br b)) s k s2
  | eachOpen {ls kd lhs e br b s s1 v} : m.eachOpen kd lhs e s s1 (.throw v) →
      Run m (.stmt ls (.each kd lhs e br b)) s (.throw v) s1
  | eachDone {ls kd lhs it b s s1} : m.eachStep kd lhs it s s1 .done →
      Run m (.each ls kd lhs it b) s .normal s1
  | eachThrow {ls kd lhs it b s s1 v} : m.eachStep kd lhs it s s1 (.throw v) →
      Run m (.each ls kd lhs it b) s (.throw v) s1
  | eachNext {ls kd lhs it b s s1 k s2 s3 k' k'' s4} : m.eachStep kd lhs it s s1 .next →
      Run m (.stmt [] (.block b)) s1 k s2 → k.again ls = true →
      m.eachLeave kd lhs it s s2 .normal s3 k' → k' = .normal →
      Run m (.each ls kd lhs it b) s3 k'' s4 → Run m (.each ls kd lhs it b) s k'' s4
  | eachExit {ls kd lhs it b s s1 k s2 s3 k'} : m.eachStep kd lhs it s s1 .next →
      Run m (.stmt [] (.block b)) s1 k s2 → k.again ls = false →
      m.eachLeave kd lhs it s s2 k s3 k' → Run m (.each ls kd lhs it b) s k'.exit s3
  | switchThrow {ls e ts bs s s1 v} : Eval m e s s1 (.throw v) →
      Run m (.stmt ls (.switch e ts bs)) s (.throw v) s1
  | switch {ls e ts bs s s1 v s2 s3 i k s4 k' s5} : Eval m e s s1 (.val v) →
      Enter m (lexs bs.flatten) s1 s2 → Pick m v ts s2 s3 (.ok i) →
      Run m (.list (from_ bs (startAt ts i))) s3 k s4 →
      Leave m (lexs bs.flatten) s1 s4 k s5 k' → Run m (.stmt ls (.switch e ts bs)) s k'.exit s5
  | switchTest {ls e ts bs s s1 v s2 s3 w k' s5} : Eval m e s s1 (.val v) →
      Enter m (lexs bs.flatten) s1 s2 → Pick m v ts s2 s3 (.error w) →
      Leave m (lexs bs.flatten) s1 s3 (.throw w) s5 k' →
      Run m (.stmt ls (.switch e ts bs)) s k'.exit s5
  | guard {b hc p h s k s1} : Run m (.stmt [] (.block b)) s k s1 →
      (hc = false ∨ ∀ v, k ≠ .throw v) → Run m (.guarded b hc p h) s k s1
  | caught {b p h s v s1 s2 k s3 k' s4} : Run m (.stmt [] (.block b)) s (.throw v) s1 →
      m.catchEnter p v s1 s2 none → Run m (.stmt [] (.block h)) s2 k s3 →
      m.catchLeave p s1 s3 k s4 k' → Run m (.guarded b true p h) s k' s4
  | catchThrow {b p h s v s1 s2 w} : Run m (.stmt [] (.block b)) s (.throw v) s1 →
      m.catchEnter p v s1 s2 (some w) → Run m (.guarded b true p h) s (.throw w) s2
  | tryPlain {ls b hc p h f s k s1} : Run m (.guarded b hc p h) s k s1 →
      Run m (.stmt ls (.tries b hc p h false f)) s k s1
  | tryFinally {ls b hc p h f s k s1 k' s2} : Run m (.guarded b hc p h) s k s1 →
      Run m (.stmt [] (.block f)) s1 k' s2 →
      Run m (.stmt ls (.tries b hc p h true f)) s (k.orElse k') s2
  | withThrow {ls e b s s1 v} : Eval m e s s1 (.throw v) →
      Run m (.stmt ls (.withs e b)) s (.throw v) s1
  | withFail {ls e b s s1 v s2 w} : Eval m e s s1 (.val v) → m.withEnter v s1 s2 (some w) →
      Run m (.stmt ls (.withs e b)) s (.throw w) s2
  | with {ls e b s s1 v s2 k s3 k' s4} : Eval m e s s1 (.val v) → m.withEnter v s1 s2 none →
      Run m (.stmt [] b) s2 k s3 → m.withLeave s1 s3 k s4 k' →
      Run m (.stmt ls (.withs e b)) s k' s4
  | label {ls l b s k s1} : Run m (.stmt (l :: ls) b) s k s1 →
      Run m (.stmt ls (.label l b)) s (k.unlabel l) s1
  | func {ls x id ab s s1} : m.func x id ab s s1 → Run m (.stmt ls (.func x id ab)) s .normal s1
  | cls {ls x id s s1 r} : m.cls x id s s1 r → Run m (.stmt ls (.cls x id)) s (thrown r) s1
  | decl {ls x md ds s k s1} : Run m (.decls md ds) s k s1 → Run m (.stmt ls (.decl x md ds)) s k s1
  | item {ls id s s1 r} : m.item id s s1 r → Run m (.stmt ls (.item id)) s (thrown r) s1

/-- Running a body: it is set up from its header, which may throw, and then its statements run. -/
def RunBody (m : Machine σ V) (inherited : Bool) (body : List Stmt) (s : σ) (k : Compl V) (s' : σ) :
    Prop :=
  (∃ v, m.start (header inherited body) s s' (some v) ∧ k = .throw v) ∨
  (∃ s0, m.start (header inherited body) s s0 none ∧ Run m (.list body) s0 k s')

/-- Two bodies do the same on every machine. -/
def SameBody (inherited : Bool) (a b : List Stmt) : Prop :=
  ∀ (σ V : Type) (m : Machine σ V) (s : σ) (k : Compl V) (s' : σ),
    RunBody m inherited a s k s' ↔ RunBody m inherited b s k s'

/-! ## The bodies the claim is about -/

mutual
/-- Statements of a body that come after its directives, and those inside them:

* a body of a statement that is not a list declares nothing itself (only the function of Annex
  B.3.3 could),
* `"use strict"` is no statement,
* there are no imports and exports,
* in strict code, a function has no `var` binding beside its own. -/
def ok (strict : Bool) : Stmt → Bool
  | .expr e => e ≠ .lit false (.str "use strict")
  | .block body => oks strict body
  | .ifThen _ t => ok strict t && (lex t).isEmpty
  | .ifElse _ t e => ok strict t && (lex t).isEmpty && ok strict e && (lex e).isEmpty
  | .while _ body => ok strict body && (lex body).isEmpty
  | .doWhile body _ => ok strict body && (lex body).isEmpty
  | .for _ _ _ _ body => oks strict body
  | .each _ _ _ _ body => oks strict body
  | .switch _ _ bodies => okss strict bodies
  | .tries body _ _ handler _ last => oks strict body && oks strict handler && oks strict last
  | .withs _ body => ok strict body && (lex body).isEmpty
  | .label _ body => ok strict body
  | .func _ _ annexB => !(strict && annexB)
  | .decl exported _ _ => !exported
  | .item _ => false
  | _ => true
/-- The same for a list. -/
def oks (strict : Bool) : List Stmt → Bool
  | [] => true
  | st :: rest => ok strict st && oks strict rest
/-- The same for lists. -/
def okss (strict : Bool) : List (List Stmt) → Bool
  | [] => true
  | b :: rest => oks strict b && okss strict rest
end

/-- An import, or a declaration that is exported. -/
def Linked (st : Stmt) : Prop := (∃ id, st = .item id) ∨ ∃ m ds, st = .decl true m ds

/-- A body of which the claim is made: directives, then statements as above and, in a module,
imports and exports. -/
def Fair (inherited : Bool) (body : List Stmt) : Prop :=
  ∃ (strict : Bool) (pro rest : List Stmt),
    (strict = true ↔ (inherited = true ∨ UsesStrict body)) ∧ body = pro ++ rest ∧
    (∀ st ∈ pro, ∃ s, st = Directive s) ∧ ∀ st ∈ rest, ok strict st = true ∨ Linked st

/-- No imports and exports. -/
def Unlinked (body : List Stmt) : Prop := ∀ st ∈ body, ¬ Linked st

end Verif.Stmts
