import Verif.Exec.Syntax
/-!
# Statements in ECMA-262

Evaluation of statements as in ECMA-262, chapter 14, as a relation: `Ecma H j e w c w'` says that what `j` names,
evaluated with the running environment `e` in the world `w`, completes with `c` and leaves the world `w'`.  The
environment is a parameter: whatever a statement does, its surroundings keep theirs.
-/

namespace Verif.Exec

section
variable {V : Type}

/-- UpdateEmpty (6.2.4.4). -/
def Completion.fill : Completion V → Option V → Completion V
  | .normal u, v => .normal (u.or v)
  | .brk l u, v => .brk l (u.or v)
  | .cont l u, v => .cont l (u.or v)
  | .throw u, _ => .throw u
  | .ret u, _ => .ret u

/-- [[Value]]. -/
def Completion.val : Completion V → Option V
  | .normal u => u
  | .brk _ u => u
  | .cont _ u => u
  | .throw u => some u
  | .ret u => some u

/-- Not a normal completion. -/
def Completion.Abrupt (c : Completion V) : Prop := ∀ v, c ≠ .normal v

/-- LoopContinues (14.7.1.1). -/
def Completion.Continues (ls : List Nat) : Completion V → Prop
  | .normal _ => True
  | .cont none _ => True
  | .cont (some l) _ => l ∈ ls
  | _ => False

/-- The end of LabelledEvaluation of a BreakableStatement (14.13.4). -/
def Completion.unbreak (undef : V) : Completion V → Completion V
  | .brk none v => .normal (some (v.getD undef))
  | c => c

/-- The end of LabelledEvaluation of a LabelledStatement (14.13.4). -/
def Completion.unlabel (l : Nat) : Completion V → Completion V
  | .brk (some t) v => if t = l then .normal v else .brk (some t) v
  | c => c

end

/-- What follows the `case` clauses: nothing, or after those before `default` the default clause and those after it,
or after those after `default` the default clause and those again. -/
inductive Rest (X P D : Type) where
  | last
  | before (b : Stmts X P D) (c : Cases X P D)
  | after (b : Stmts X P D) (c : Cases X P D)

/-- What is evaluated. -/
inductive Job (X P D V I : Type) where
  | stmt (s : Stmt X P D) (ls : List Nat)
  | list (ss : Stmts X P D) (last : Option V)
  | block (d : D) (ss : Stmts X P D)
  | decl (k : Kind) (ds : List (Declarator X P))
  | init (i : Init X P)
  | post (x : Option X)
  | handler (h : Handler X P D) (c : Completion V)
  | final (f : Final X P D) (c : Completion V)
  | while_ (x : X) (s : Stmt X P D) (ls : List Nat) (v : V)
  | doWhile (x : X) (s : Stmt X P D) (ls : List Nat) (v : V)
  | for_ (cond post : Option X) (d : D) (ss : Stmts X P D) (ls : List Nat) (v : V)
  | forIn (l : Lhs P) (d : D) (ss : Stmts X P D) (ls : List Nat) (ks : List V) (v : V)
  | forOf (l : Lhs P) (d : D) (ss : Stmts X P D) (ls : List Nat) (i : I) (v : V)
  | cases (cs : Cases X P D) (t : V) (found : Bool) (v : V) (k : Rest X P D)
  | default (b : Stmts X P D) (c : Cases X P D) (v : V)
  | bodies (cs : Cases X P D) (v : V)

section
variable {X P D V E I W : Type} (H : Host X P D V E I W)

/-- The head of `for`-`in` and `for`-`of` (14.7.5.6): with `let` and `const` the names are there but not
initialised. -/
def headExpr : Lhs P → X → E → W → Out V V × W
  | .let_ p, x => H.exprTdz p x
  | .const_ p, x => H.exprTdz p x
  | _, x => H.expr x

/-- The binding of one iteration (14.7.5.7): with `let` and `const` in a new environment. -/
def bindIter (l : Lhs P) (v : V) (e : E) (w : W) : Out V E × W :=
  match l with
  | .let_ p => H.bindNew .let_ p v e w
  | .const_ p => H.bindNew .const_ p v e w
  | .var_ p =>
    match H.bind .var_ p v e w with
    | (.ok _, w) => (.ok e, w)
    | (.throw t, w) => (.throw t, w)
    | (.fatal, w) => (.fatal, w)
  | .assign p =>
    match H.bind .assign p v e w with
    | (.ok _, w) => (.ok e, w)
    | (.throw t, w) => (.throw t, w)
    | (.fatal, w) => (.fatal, w)

/-- The test of a `for` loop; it holds if there is none. -/
def TestHolds (x : Option X) (b : Bool) (e : E) (w w' : W) : Prop :=
  match x with
  | none => b = true ∧ w' = w
  | some x => ∃ v, H.expr x e w = (.ok v, w') ∧ H.truthy v w' = b

/-- Evaluation. -/
inductive Ecma : Job X P D V I → E → W → Completion V → W → Prop where
  -- 14.2.2 StatementList
  | nil {last e w} : Ecma (.list .nil last) e w (.normal last) w
  | cons {s ss last e w c w1 v c' w'} : Ecma (.stmt s []) e w c w1 → c.fill last = .normal v →
      Ecma (.list ss v) e w1 c' w' → Ecma (.list (.cons s ss) last) e w c' w'
  | stop {s ss last e w c w'} : Ecma (.stmt s []) e w c w' → c.Abrupt →
      Ecma (.list (.cons s ss) last) e w (c.fill last) w'
  -- 14.2.2 Block
  | inner {d ss e w e1 w1 c w'} : H.scope d e w = some (e1, w1) → Ecma (.list ss none) e1 w1 c w' →
      Ecma (.block d ss) e w c w'
  | block {d ss ls e w c w'} : Ecma (.block d ss) e w c w' → Ecma (.stmt (.block d ss) ls) e w c w'
  -- 14.3 declarations
  | declNil {k e w} : Ecma (.decl k []) e w (.normal none) w
  | declThrow {k p x ds e w t w'} : H.expr x e w = (.throw t, w') →
      Ecma (.decl k (⟨p, some x⟩ :: ds)) e w (.throw t) w'
  | declBindThrow {k p x ds e w v w1 t w'} : H.expr x e w = (.ok v, w1) → H.bind k p v e w1 = (.throw t, w') →
      Ecma (.decl k (⟨p, some x⟩ :: ds)) e w (.throw t) w'
  | declCons {k p x ds e w v w1 w2 c w'} : H.expr x e w = (.ok v, w1) → H.bind k p v e w1 = (.ok (), w2) →
      Ecma (.decl k ds) e w2 c w' → Ecma (.decl k (⟨p, some x⟩ :: ds)) e w c w'
  | declLet {p ds e w w1 c w'} : H.bind .let_ p H.undef e w = (.ok (), w1) →
      Ecma (.decl .let_ ds) e w1 c w' → Ecma (.decl .let_ (⟨p, none⟩ :: ds)) e w c w'
  | declLetThrow {p ds e w t w'} : H.bind .let_ p H.undef e w = (.throw t, w') →
      Ecma (.decl .let_ (⟨p, none⟩ :: ds)) e w (.throw t) w'
  | declSkip {k p ds e w c w'} : k ≠ .let_ → Ecma (.decl k ds) e w c w' →
      Ecma (.decl k (⟨p, none⟩ :: ds)) e w c w'
  | decl {k ds ls e w c w'} : Ecma (.decl k ds) e w c w' → Ecma (.stmt (.decl k ds) ls) e w c w'
  -- 14.4 empty statement; function declarations do nothing when they are reached (15.2.6)
  | empty {ls e w} : Ecma (.stmt .empty ls) e w (.normal none) w
  | func {ls e w} : Ecma (.stmt .func ls) e w (.normal none) w
  -- 14.5 expression statement
  | expr {x ls e w v w'} : H.expr x e w = (.ok v, w') → Ecma (.stmt (.expr x) ls) e w (.normal (some v)) w'
  | exprThrow {x ls e w t w'} : H.expr x e w = (.throw t, w') → Ecma (.stmt (.expr x) ls) e w (.throw t) w'
  -- 14.6 if
  | ifThrow {x s ls e w t w'} : H.expr x e w = (.throw t, w') → Ecma (.stmt (.ifThen x s) ls) e w (.throw t) w'
  | ifTrue {x s ls e w v w1 c w'} : H.expr x e w = (.ok v, w1) → H.truthy v w1 = true →
      Ecma (.stmt s []) e w1 c w' → Ecma (.stmt (.ifThen x s) ls) e w (c.fill (some H.undef)) w'
  | ifFalse {x s ls e w v w'} : H.expr x e w = (.ok v, w') → H.truthy v w' = false →
      Ecma (.stmt (.ifThen x s) ls) e w (.normal (some H.undef)) w'
  | ifElseThrow {x s t ls e w u w'} : H.expr x e w = (.throw u, w') →
      Ecma (.stmt (.ifElse x s t) ls) e w (.throw u) w'
  | ifElseTrue {x s t ls e w v w1 c w'} : H.expr x e w = (.ok v, w1) → H.truthy v w1 = true →
      Ecma (.stmt s []) e w1 c w' → Ecma (.stmt (.ifElse x s t) ls) e w (c.fill (some H.undef)) w'
  | ifElseFalse {x s t ls e w v w1 c w'} : H.expr x e w = (.ok v, w1) → H.truthy v w1 = false →
      Ecma (.stmt t []) e w1 c w' → Ecma (.stmt (.ifElse x s t) ls) e w (c.fill (some H.undef)) w'
  -- 14.7.2.2 do-while
  | doStmt {s x ls e w c w'} : Ecma (.doWhile x s ls H.undef) e w c w' →
      Ecma (.stmt (.doWhile s x) ls) e w (c.unbreak H.undef) w'
  | doStop {x s ls v e w c w'} : Ecma (.stmt s []) e w c w' → ¬ c.Continues ls →
      Ecma (.doWhile x s ls v) e w (c.fill (some v)) w'
  | doThrow {x s ls v e w c w1 t w'} : Ecma (.stmt s []) e w c w1 → c.Continues ls →
      H.expr x e w1 = (.throw t, w') → Ecma (.doWhile x s ls v) e w (.throw t) w'
  | doEnd {x s ls v e w c w1 u w'} : Ecma (.stmt s []) e w c w1 → c.Continues ls →
      H.expr x e w1 = (.ok u, w') → H.truthy u w' = false →
      Ecma (.doWhile x s ls v) e w (.normal (some (c.val.getD v))) w'
  | doNext {x s ls v e w c w1 u w2 c' w'} : Ecma (.stmt s []) e w c w1 → c.Continues ls →
      H.expr x e w1 = (.ok u, w2) → H.truthy u w2 = true → Ecma (.doWhile x s ls (c.val.getD v)) e w2 c' w' →
      Ecma (.doWhile x s ls v) e w c' w'
  -- 14.7.3.2 while
  | whileStmt {x s ls e w c w'} : Ecma (.while_ x s ls H.undef) e w c w' →
      Ecma (.stmt (.while_ x s) ls) e w (c.unbreak H.undef) w'
  | whileThrow {x s ls v e w t w'} : H.expr x e w = (.throw t, w') → Ecma (.while_ x s ls v) e w (.throw t) w'
  | whileEnd {x s ls v e w u w'} : H.expr x e w = (.ok u, w') → H.truthy u w' = false →
      Ecma (.while_ x s ls v) e w (.normal (some v)) w'
  | whileStop {x s ls v e w u w1 c w'} : H.expr x e w = (.ok u, w1) → H.truthy u w1 = true →
      Ecma (.stmt s []) e w1 c w' → ¬ c.Continues ls → Ecma (.while_ x s ls v) e w (c.fill (some v)) w'
  | whileNext {x s ls v e w u w1 c w2 c' w'} : H.expr x e w = (.ok u, w1) → H.truthy u w1 = true →
      Ecma (.stmt s []) e w1 c w2 → c.Continues ls → Ecma (.while_ x s ls (c.val.getD v)) e w2 c' w' →
      Ecma (.while_ x s ls v) e w c' w'
  -- 14.7.4.2 for
  | initNone {e w} : Ecma (.init .none) e w (.normal none) w
  | initExpr {x e w v w'} : H.expr x e w = (.ok v, w') → Ecma (.init (.expr x)) e w (.normal none) w'
  | initThrow {x e w t w'} : H.expr x e w = (.throw t, w') → Ecma (.init (.expr x)) e w (.throw t) w'
  | initVars {ds e w c w'} : Ecma (.decl .var_ ds) e w c w' → Ecma (.init (.vars ds)) e w c w'
  | postNone {e w} : Ecma (.post none) e w (.normal none) w
  | postExpr {x e w v w'} : H.expr x e w = (.ok v, w') → Ecma (.post (some x)) e w (.normal none) w'
  | postThrow {x e w t w'} : H.expr x e w = (.throw t, w') → Ecma (.post (some x)) e w (.throw t) w'
  | forInitThrow {i cond post d ss ls e w t w'} : Ecma (.init i) e w (.throw t) w' →
      Ecma (.stmt (.for_ i cond post d ss) ls) e w (.throw t) w'
  | forStmt {i cond post d ss ls e w w1 c w'} : Ecma (.init i) e w (.normal none) w1 →
      Ecma (.for_ cond post d ss ls H.undef) e w1 c w' →
      Ecma (.stmt (.for_ i cond post d ss) ls) e w (c.unbreak H.undef) w'
  | forThrow {x post d ss ls v e w t w'} : H.expr x e w = (.throw t, w') →
      Ecma (.for_ (some x) post d ss ls v) e w (.throw t) w'
  | forEnd {cond post d ss ls v e w w'} : TestHolds H cond false e w w' →
      Ecma (.for_ cond post d ss ls v) e w (.normal (some v)) w'
  | forStop {cond post d ss ls v e w w1 c w'} : TestHolds H cond true e w w1 → Ecma (.block d ss) e w1 c w' →
      ¬ c.Continues ls → Ecma (.for_ cond post d ss ls v) e w (c.fill (some v)) w'
  | forPost {cond post d ss ls v e w w1 c w2 t w'} : TestHolds H cond true e w w1 → Ecma (.block d ss) e w1 c w2 →
      c.Continues ls → Ecma (.post post) e w2 (.throw t) w' → Ecma (.for_ cond post d ss ls v) e w (.throw t) w'
  | forNext {cond post d ss ls v e w w1 c w2 w3 c' w'} : TestHolds H cond true e w w1 →
      Ecma (.block d ss) e w1 c w2 → c.Continues ls → Ecma (.post post) e w2 (.normal none) w3 →
      Ecma (.for_ cond post d ss ls (c.val.getD v)) e w3 c' w' → Ecma (.for_ cond post d ss ls v) e w c' w'
  -- 14.7.5 for-in
  | inThrow {l x d ss ls e w t w'} : headExpr H l x e w = (.throw t, w') →
      Ecma (.stmt (.forIn l x d ss) ls) e w (.throw t) w'
  | inNullish {l x d ss ls e w v w'} : headExpr H l x e w = (.ok v, w') → H.nullish v = true →
      Ecma (.stmt (.forIn l x d ss) ls) e w (.normal (some H.undef)) w'
  | inObjectThrow {l x d ss ls e w v w1 t w'} : headExpr H l x e w = (.ok v, w1) → H.nullish v = false →
      H.object v w1 = (.throw t, w') → Ecma (.stmt (.forIn l x d ss) ls) e w (.throw t) w'
  | inKeysThrow {l x d ss ls e w v w1 o w2 t w'} : headExpr H l x e w = (.ok v, w1) → H.nullish v = false →
      H.object v w1 = (.ok o, w2) → H.keys o w2 = (.throw t, w') →
      Ecma (.stmt (.forIn l x d ss) ls) e w (.throw t) w'
  | inStmt {l x d ss ls e w v w1 o w2 ks w3 c w'} : headExpr H l x e w = (.ok v, w1) → H.nullish v = false →
      H.object v w1 = (.ok o, w2) → H.keys o w2 = (.ok ks, w3) → Ecma (.forIn l d ss ls ks H.undef) e w3 c w' →
      Ecma (.stmt (.forIn l x d ss) ls) e w (c.unbreak H.undef) w'
  | inEnd {l d ss ls v e w} : Ecma (.forIn l d ss ls [] v) e w (.normal (some v)) w
  | inBind {l d ss ls k ks v e w t w'} : bindIter H l k e w = (.throw t, w') →
      Ecma (.forIn l d ss ls (k :: ks) v) e w (.throw t) w'
  | inStop {l d ss ls k ks v e w e1 w1 c w'} : bindIter H l k e w = (.ok e1, w1) → Ecma (.block d ss) e1 w1 c w' →
      ¬ c.Continues ls → Ecma (.forIn l d ss ls (k :: ks) v) e w (c.fill (some v)) w'
  | inNext {l d ss ls k ks v e w e1 w1 c w2 c' w'} : bindIter H l k e w = (.ok e1, w1) →
      Ecma (.block d ss) e1 w1 c w2 → c.Continues ls → Ecma (.forIn l d ss ls ks (c.val.getD v)) e w2 c' w' →
      Ecma (.forIn l d ss ls (k :: ks) v) e w c' w'
  -- 14.7.5 for-of
  | ofThrow {l x d ss ls e w t w'} : headExpr H l x e w = (.throw t, w') →
      Ecma (.stmt (.forOf l x d ss) ls) e w (.throw t) w'
  | ofIterThrow {l x d ss ls e w v w1 t w'} : headExpr H l x e w = (.ok v, w1) → H.iter v w1 = (.throw t, w') →
      Ecma (.stmt (.forOf l x d ss) ls) e w (.throw t) w'
  | ofStmt {l x d ss ls e w v w1 i w2 c w'} : headExpr H l x e w = (.ok v, w1) → H.iter v w1 = (.ok i, w2) →
      Ecma (.forOf l d ss ls i H.undef) e w2 c w' →
      Ecma (.stmt (.forOf l x d ss) ls) e w (c.unbreak H.undef) w'
  | ofStep {l d ss ls i v e w t w'} : H.step i w = (.throw t, w') → Ecma (.forOf l d ss ls i v) e w (.throw t) w'
  | ofEnd {l d ss ls i v e w i' w'} : H.step i w = (.ok (none, i'), w') →
      Ecma (.forOf l d ss ls i v) e w (.normal (some v)) w'
  | ofBind {l d ss ls i v e w a i' w1 t w2 w'} : H.step i w = (.ok (some a, i'), w1) →
      bindIter H l a e w1 = (.throw t, w2) → (H.close i' w2).1 ≠ .fatal → (H.close i' w2).2 = w' →
      Ecma (.forOf l d ss ls i v) e w (.throw t) w'
  | ofBodyThrow {l d ss ls i v e w a i' w1 e1 w2 t w3 w'} : H.step i w = (.ok (some a, i'), w1) →
      bindIter H l a e w1 = (.ok e1, w2) → Ecma (.block d ss) e1 w2 (.throw t) w3 → (H.close i' w3).1 ≠ .fatal →
      (H.close i' w3).2 = w' → Ecma (.forOf l d ss ls i v) e w (.throw t) w'
  | ofCloseThrow {l d ss ls i v e w a i' w1 e1 w2 c w3 t w'} : H.step i w = (.ok (some a, i'), w1) →
      bindIter H l a e w1 = (.ok e1, w2) → Ecma (.block d ss) e1 w2 c w3 → ¬ c.Continues ls → (∀ t, c ≠ .throw t) →
      H.close i' w3 = (.throw t, w') → Ecma (.forOf l d ss ls i v) e w (.throw t) w'
  | ofStop {l d ss ls i v e w a i' w1 e1 w2 c w3 w'} : H.step i w = (.ok (some a, i'), w1) →
      bindIter H l a e w1 = (.ok e1, w2) → Ecma (.block d ss) e1 w2 c w3 → ¬ c.Continues ls → (∀ t, c ≠ .throw t) →
      H.close i' w3 = (.ok (), w') → Ecma (.forOf l d ss ls i v) e w (c.fill (some v)) w'
  | ofNext {l d ss ls i v e w a i' w1 e1 w2 c w3 c' w'} : H.step i w = (.ok (some a, i'), w1) →
      bindIter H l a e w1 = (.ok e1, w2) → Ecma (.block d ss) e1 w2 c w3 → c.Continues ls →
      Ecma (.forOf l d ss ls i' (c.val.getD v)) e w3 c' w' → Ecma (.forOf l d ss ls i v) e w c' w'
  -- 14.8.2 continue, 14.9.2 break
  | continue_ {l ls e w} : Ecma (.stmt (.continue_ l) ls) e w (.cont l none) w
  | break_ {l ls e w} : Ecma (.stmt (.break_ l) ls) e w (.brk l none) w
  -- 14.10.1 return
  | ret {ls e w} : Ecma (.stmt (.ret none) ls) e w (.ret H.undef) w
  | retExpr {x ls e w v w'} : H.expr x e w = (.ok v, w') → Ecma (.stmt (.ret (some x)) ls) e w (.ret v) w'
  | retThrow {x ls e w t w'} : H.expr x e w = (.throw t, w') → Ecma (.stmt (.ret (some x)) ls) e w (.throw t) w'
  -- 14.12 switch
  | switchThrow {x d cs ls e w t w'} : H.expr x e w = (.throw t, w') →
      Ecma (.stmt (.switch x d cs) ls) e w (.throw t) w'
  | switch {x d cs ls e w v w1 e1 w2 c w'} : H.expr x e w = (.ok v, w1) → H.scope d e w1 = some (e1, w2) →
      Ecma (.cases cs v false H.undef .last) e1 w2 c w' →
      Ecma (.stmt (.switch x d cs) ls) e w (c.unbreak H.undef) w'
  | switchDThrow {x d a b cs ls e w t w'} : H.expr x e w = (.throw t, w') →
      Ecma (.stmt (.switchDefault x d a b cs) ls) e w (.throw t) w'
  | switchD {x d a b cs ls e w v w1 e1 w2 c w'} : H.expr x e w = (.ok v, w1) → H.scope d e w1 = some (e1, w2) →
      Ecma (.cases a v false H.undef (.before b cs)) e1 w2 c w' →
      Ecma (.stmt (.switchDefault x d a b cs) ls) e w (c.unbreak H.undef) w'
  | caseThrow {x ss cs t v k e w u w'} : H.expr x e w = (.throw u, w') →
      Ecma (.cases (.cons x ss cs) t false v k) e w (.throw u) w'
  | caseSkip {x ss cs t v k e w u w1 c w'} : H.expr x e w = (.ok u, w1) → H.equal t u w1 = false →
      Ecma (.cases cs t false v k) e w1 c w' → Ecma (.cases (.cons x ss cs) t false v k) e w c w'
  | caseHit {x ss cs t v k e w u w1 c w'} : H.expr x e w = (.ok u, w1) → H.equal t u w1 = true →
      Ecma (.cases (.cons x ss cs) t true v k) e w1 c w' → Ecma (.cases (.cons x ss cs) t false v k) e w c w'
  | caseStop {x ss cs t v k e w c w'} : Ecma (.list ss none) e w c w' → c.Abrupt →
      Ecma (.cases (.cons x ss cs) t true v k) e w (c.fill (some v)) w'
  | caseNext {x ss cs t v k e w u w1 c w'} : Ecma (.list ss none) e w (.normal u) w1 →
      Ecma (.cases cs t true (u.getD v) k) e w1 c w' → Ecma (.cases (.cons x ss cs) t true v k) e w c w'
  | casesLast {t found v e w} : Ecma (.cases .nil t found v .last) e w (.normal (some v)) w
  | casesFound {t v b cs e w c w'} : Ecma (.default b cs v) e w c w' →
      Ecma (.cases .nil t true v (.before b cs)) e w c w'
  | casesOther {t v b cs e w c w'} : Ecma (.cases cs t false v (.after b cs)) e w c w' →
      Ecma (.cases .nil t false v (.before b cs)) e w c w'
  | casesFoundAfter {t v b cs e w} : Ecma (.cases .nil t true v (.after b cs)) e w (.normal (some v)) w
  | casesDefault {t v b cs e w c w'} : Ecma (.default b cs v) e w c w' →
      Ecma (.cases .nil t false v (.after b cs)) e w c w'
  | defaultStop {b cs v e w c w'} : Ecma (.list b none) e w c w' → c.Abrupt →
      Ecma (.default b cs v) e w (c.fill (some v)) w'
  | defaultNext {b cs v e w u w1 c w'} : Ecma (.list b none) e w (.normal u) w1 →
      Ecma (.bodies cs (u.getD v)) e w1 c w' → Ecma (.default b cs v) e w c w'
  | bodiesEnd {v e w} : Ecma (.bodies .nil v) e w (.normal (some v)) w
  | bodiesStop {x ss cs v e w c w'} : Ecma (.list ss none) e w c w' → c.Abrupt →
      Ecma (.bodies (.cons x ss cs) v) e w (c.fill (some v)) w'
  | bodiesNext {x ss cs v e w u w1 c w'} : Ecma (.list ss none) e w (.normal u) w1 →
      Ecma (.bodies cs (u.getD v)) e w1 c w' → Ecma (.bodies (.cons x ss cs) v) e w c w'
  -- 14.13 labelled statements
  | label {l s ls e w c w'} : Ecma (.stmt s (ls ++ [l])) e w c w' → Ecma (.stmt (.label l s) ls) e w (c.unlabel l) w'
  -- 14.14 throw
  | throw {x ls e w v w'} : H.expr x e w = (.ok v, w') → Ecma (.stmt (.throw x) ls) e w (.throw v) w'
  | throwThrow {x ls e w t w'} : H.expr x e w = (.throw t, w') → Ecma (.stmt (.throw x) ls) e w (.throw t) w'
  -- 14.15 try
  | try_ {d ss h f ls e w b w1 c w2 r w'} : Ecma (.block d ss) e w b w1 → Ecma (.handler h b) e w1 c w2 →
      Ecma (.final f c) e w2 r w' → Ecma (.stmt (.try_ d ss h f) ls) e w (r.fill (some H.undef)) w'
  | noHandler {c e w} : Ecma (.handler .none c) e w c w
  | unused {h c e w} : (∀ t, c ≠ .throw t) → Ecma (.handler h c) e w c w
  | catch_ {d ss t e w c w'} : Ecma (.block d ss) e w c w' → Ecma (.handler (.bare d ss) (.throw t)) e w c w'
  | catchBind {p ss t e w u w'} : H.bindNew .let_ p t e w = (.throw u, w') →
      Ecma (.handler (.param p ss) (.throw t)) e w (.throw u) w'
  | catchParam {p ss t e w e1 w1 c w'} : H.bindNew .let_ p t e w = (.ok e1, w1) → Ecma (.list ss none) e1 w1 c w' →
      Ecma (.handler (.param p ss) (.throw t)) e w c w'
  | noFinal {c e w} : Ecma (.final .none c) e w c w
  | finalNormal {d ss c e w v w'} : Ecma (.block d ss) e w (.normal v) w' → Ecma (.final (.some d ss) c) e w c w'
  | finalAbrupt {d ss c e w r w'} : Ecma (.block d ss) e w r w' → r.Abrupt → Ecma (.final (.some d ss) c) e w r w'

end

/-! ## Programs on which the interpreter can be compared -/

section
variable {X P D V E I W : Type} (H : Host X P D V E I W)

/-- Entering a block with these declarations changes nothing: there are none. -/
def Bare (d : D) : Prop := ∀ e w, H.scope d e w = some (e, w)

/-- Binding the pattern does not throw. -/
def Safe (p : P) : Prop := ∀ v e w t w', H.bindNew .let_ p v e w ≠ (.throw t, w')

/-- If there are a parameter of `catch` and a `finally`, binding the parameter does not throw. -/
def CatchSafe : Handler X P D → Final X P D → Prop
  | .param p _, .some _ _ => Safe H p
  | _, _ => True

/-- Closing an iterator does not fail, and after a failed step it does nothing. -/
def ClosesQuietly : Prop :=
  (∀ i w, (H.close i w).1 = .ok ()) ∧ ∀ i w t w', H.step i w = (.throw t, w') → (H.close i w').2 = w'

/-- The left side of a `for`-`in` loop does not matter to the expression. -/
def HeadApart (l : Lhs P) (x : X) : Prop := ∀ e w, headExpr H l x e w = H.expr x e w

/-- Not `let` or `const`. -/
def Lhs.shared : Lhs P → Bool
  | .let_ _ => false
  | .const_ _ => false
  | _ => true

mutual
/-- Statements whose effects are as in ECMA-262. -/
def Stmt.Plain : Stmt X P D → Prop
  | .block _ ss => ss.Plain
  | .ifThen _ s => s.Plain
  | .ifElse _ s t => s.Plain ∧ t.Plain
  | .try_ _ ss h f => ss.Plain ∧ h.Plain ∧ f.Plain ∧ CatchSafe H h f
  | .while_ _ s => s.Plain
  | .doWhile s _ => s.Plain
  | .for_ _ _ _ d ss => Bare H d ∧ ss.Plain
  | .forIn l x d ss => Bare H d ∧ HeadApart H l x ∧ ss.Plain
  | .forOf l _ d ss => Bare H d ∧ l.shared = true ∧ ClosesQuietly H ∧ ss.Plain
  | .switch _ _ cs => cs.Plain
  | .switchDefault _ _ a b c => a.Plain ∧ b.Plain ∧ c.Plain
  | .label _ s => s.Plain
  | _ => True

def Stmts.Plain : Stmts X P D → Prop
  | .nil => True
  | .cons s ss => s.Plain ∧ ss.Plain

def Handler.Plain : Handler X P D → Prop
  | .none => True
  | .bare _ ss => ss.Plain
  | .param _ ss => ss.Plain

def Final.Plain : Final X P D → Prop
  | .none => True
  | .some _ ss => ss.Plain

def Cases.Plain : Cases X P D → Prop
  | .nil => True
  | .cons _ ss cs => ss.Plain ∧ cs.Plain
end

end

mutual
/-- There is no `if`. -/
def Stmt.noIf {X P D : Type} : Stmt X P D → Bool
  | .block _ ss => ss.noIf
  | .ifThen _ _ => false
  | .ifElse _ _ _ => false
  | .try_ _ ss h f => ss.noIf && h.noIf && f.noIf
  | .while_ _ s => s.noIf
  | .doWhile s _ => s.noIf
  | .for_ _ _ _ _ ss => ss.noIf
  | .forIn _ _ _ ss => ss.noIf
  | .forOf _ _ _ ss => ss.noIf
  | .switch _ _ cs => cs.noIf
  | .switchDefault _ _ a b c => a.noIf && b.noIf && c.noIf
  | .label _ s => s.noIf
  | _ => true

def Stmts.noIf {X P D : Type} : Stmts X P D → Bool
  | .nil => true
  | .cons s ss => s.noIf && ss.noIf

def Handler.noIf {X P D : Type} : Handler X P D → Bool
  | .none => true
  | .bare _ ss => ss.noIf
  | .param _ ss => ss.noIf

def Final.noIf {X P D : Type} : Final X P D → Bool
  | .none => true
  | .some _ ss => ss.noIf

def Cases.noIf {X P D : Type} : Cases X P D → Bool
  | .nil => true
  | .cons _ ss cs => ss.noIf && cs.noIf
end

/-- The same way of completion, with the same thrown or returned value; the values of other completions, which only a
script as a whole or `eval` returns, may differ. -/
def Completion.Alike {V : Type} : Completion V → Completion V → Prop
  | .normal _, .normal _ => True
  | .throw v, .throw v' => v = v'
  | .ret v, .ret v' => v = v'
  | .brk l _, .brk l' _ => l = l'
  | .cont l _, .cont l' _ => l = l'
  | _, _ => False

end Verif.Exec
