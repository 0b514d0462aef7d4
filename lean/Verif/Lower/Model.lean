import Verif.Lower.Syntax
import Verif.Lin.Model
/-!
# Translation of expressions and statements to instructions

Sources: `optimize-js/src/il/s2i/{mod,expr,stmt}.rs`, without type information (the feature `typed` is off or
no types are given, so that `expr_truthiness` and its like know nothing: types.rs 54–146).

The instructions that the code pushes on `out` are returned as a list.  An error (unsupported syntax) or a
panic is `none`.  Counters do not overflow.
-/

namespace Verif.Lower

open Verif.Il Verif.Lin

/-- The counters and the map from symbols to variables: il/s2i/mod.rs 34–46. -/
structure S where
  temp : Nat
  label : Nat
  syms : List (Nat × Nat)
deriving Repr

/-- `c_temp.bump()`: util/counter.rs 8–12. -/
def S.bumpT (C : S) : S := { C with temp := C.temp + 1 }

/-- `c_label.bump()`: util/counter.rs 8–12. -/
def S.bumpL (C : S) : S := { C with label := C.label + 1 }

/-- `symbol_to_temp`: il/s2i/mod.rs 74–79. -/
def symTemp (C : S) (s : Nat) : S × Nat :=
  match C.syms.lookup s with
  | some t => (C, t)
  | none => ({ C with temp := C.temp + 1, syms := (s, C.temp) :: C.syms }, C.temp)

/-- `Inst::goto`: inst.rs 313–319. -/
def goto (l : Nat) : Inst := { t := .goto, labels := [l] }

/-- `Inst::label`: inst.rs 393–399. -/
def label (l : Nat) : Inst := { t := .label, labels := [l] }

/-- `Inst::foreign_load`: inst.rs 348–355. -/
def foreignLoad (t s : Nat) : Inst := { t := .foreignLoad, tgts := [t], foreign := s }

/-- `Inst::foreign_store`: inst.rs 357–364. -/
def foreignStore (s : Nat) (a : Arg) : Inst := { t := .foreignStore, args := [a], foreign := s }

/-- `Inst::unknown_load`: inst.rs 366–373. -/
def unknownLoad (t : Nat) (n : List Nat) : Inst := { t := .unknownLoad, tgts := [t], unknown := n }

/-- `Inst::unknown_store`: inst.rs 375–382. -/
def unknownStore (n : List Nat) (a : Arg) : Inst := { t := .unknownStore, args := [a], unknown := n }

def undef : Arg := .const .undefined

/-- The operators of binary expressions: expr.rs 706–722. -/
def ArithOp.il : ArithOp → BinOp
  | .add => .add
  | .sub => .sub
  | .mul => .mul
  | .div => .div
  | .rem => .mod
  | .exp => .exp
  | .shl => .shl
  | .shr => .shr
  | .ushr => .ushr
  | .bitOr => .bitOr
  | .bitAnd => .bitAnd
  | .bitXor => .bitXor

/-- The operators of assignments: expr.rs 280–292 and 422–434. -/
def ArithOp.assignIl : ArithOp → BinOp
  | .add => .add
  | .sub => .sub
  | .mul => .mul
  | .div => .div
  | .rem => .mod
  | .shl => .shl
  | .shr => .shr
  | .ushr => .ushr
  | .bitAnd => .bitAnd
  | .bitOr => .bitOr
  | .bitXor => .bitXor
  | .exp => .exp

/-- `undefined` -/
def undefinedName : List Nat := [117, 110, 100, 101, 102, 105, 110, 101, 100]

/-- `is_nullish`: expr.rs 591–601. -/
def isNullish : Expr → Bool
  | .lit .null | .lit .undefined => true
  | .unary .void _ => true
  | .ident (.unknown n) | .ident (.builtin n) => n == undefinedName
  | _ => false

/-- The operators of comparisons: expr.rs 712–738.  Loose equality is translated only when an operand is
`null` or `undefined`. -/
def CmpOp.il (nullish : Bool) : CmpOp → Option BinOp
  | .lt => some .lt
  | .le => some .leq
  | .strictEq => some .strictEq
  | .strictNe => some .notStrictEq
  | .gt => some .gt
  | .ge => some .geq
  | .eq => if nullish then some .looseEq else none
  | .ne => if nullish then some .notLooseEq else none

/-- The operators of `compile_unary_expr`: expr.rs 826–877. -/
def UnaryOp.il : UnaryOp → UnOp
  | .not => .not
  | .bitNot => .bitNot
  | .minus => .neg
  | .plus => .plus
  | .typeof => .typeof
  | .void => .void

/-- What an assignment writes to: the instruction with a dummy operand of expr.rs 187–198. -/
inductive Dest where
  | temp (t : Nat)
  | foreign (s : Nat)
  | unknown (n : List Nat)

/-- expr.rs 187–198: builtins cannot be assigned to. -/
def dest (C : S) : VarType → Option (S × Dest)
  | .local s => let r := symTemp C s; some (r.1, .temp r.2)
  | .foreign s => some (C, .foreign s)
  | .unknown n => some (C, .unknown n)
  | .builtin _ => none

/-- The instruction, once its operand is known. -/
def Dest.store : Dest → Arg → Inst
  | .temp t, a => Inst.varAssign t a
  | .foreign s, a => foreignStore s a
  | .unknown n, a => unknownStore n a

/-- The current value: expr.rs 211–235 and 301–325. -/
def Dest.load (C : S) : Dest → S × List Inst × Arg
  | .temp t => (C, [], .var t)
  | .foreign s => (C.bumpT, [foreignLoad C.temp s], .var C.temp)
  | .unknown n => (C.bumpT, [unknownLoad C.temp n], .var C.temp)

/-- `compile_id_expr`: expr.rs 150–157. -/
def compileId (C : S) : VarType → S × List Inst × Arg
  | .local s => let r := symTemp C s; (r.1, [], .var r.2)
  | .builtin n => (C, [], .builtin n)
  | .foreign s => (C.bumpT, [foreignLoad C.temp s], .var C.temp)
  | .unknown n => (C.bumpT, [unknownLoad C.temp n], .var C.temp)

/-- The jump over the right operand of a logical assignment, taken on the value in `v`: expr.rs 242–270 and
384–412. -/
def logJump (C : S) (op : LogOp) (v skip : Nat) : S × List Inst :=
  match op with
  | .and => (C, [Inst.condGoto (.var v) dummyLabel skip])
  | .or => (C, [Inst.condGoto (.var v) skip dummyLabel])
  | .nullish => (C.bumpT, [Inst.bin C.temp (.var v) .looseEq (.const .null),
      Inst.condGoto (.var C.temp) dummyLabel skip])

/-- `maybe_setup_chain`: expr.rs 44–54.  The label to jump to, and whether it is new. -/
def setupChain (C : S) : Option Nat → S × Bool × Nat
  | some l => (C, false, l)
  | none => (C.bumpL, true, C.label)

/-- `conditional_chain_jump`: expr.rs 59–75. -/
def chainJump (C : S) (optional : Bool) (a : Arg) (l : Nat) : S × List Inst :=
  if optional then
    (C.bumpT, [Inst.bin C.temp a .looseEq (.const .null), Inst.condGoto (.var C.temp) l dummyLabel])
  else (C, [])

/-- `complete_chain_setup`: expr.rs 79–91. -/
def completeChain (C : S) (did : Bool) (res l : Nat) : S × List Inst :=
  if did then
    (C.bumpL, [goto C.label, label l, Inst.varAssign res undef, goto C.label, label C.label])
  else (C, [])

/-- `__optimize_js_new` -/
def newCallee : List Nat :=
  [95, 95, 111, 112, 116, 105, 109, 105, 122, 101, 95, 106, 115, 95, 110, 101, 119]

/-- `eval` -/
def evalName : List Nat := [101, 118, 97, 108]

/-- A direct call of `eval`: expr.rs 946–956. -/
def isEval : Expr → Bool
  | .ident (.unknown n) | .ident (.builtin n) => n == evalName
  | _ => false

/-- The operand of `typeof` is a name that is not known: expr.rs 861–867. -/
def typeofName : UnaryOp → Expr → Option (List Nat)
  | .typeof, .ident (.unknown n) => some n
  | _, _ => none

/-- The positions of the arguments with `...`: expr.rs 974–981, 1015–1022. -/
def spreadsFrom (k : Nat) : Args → List Nat
  | .nil => []
  | .cons sp _ rest => (if sp then [k] else []) ++ spreadsFrom (k + 1) rest

/-- `Const::Num(JsNumber(1.0))`. -/
def one : Arg := .const (.num 4607182418800017408)

mutual
/-- `compile_expr_with_chain`: expr.rs 1028–1229, with `compile_member_expr` (916–938) and `compile_call_expr`
(940–1026).  The result is the state, the instructions, the argument that `this` is for a call of the result
(`CompiledMemberExpr::left`, `undefined` for other expressions) and the argument that holds the result. -/
def compileR : Expr → Option Nat → S → Option (S × List Inst × Arg × Arg)
  | .lit c, _, C => some (C, [], undef, .const c)
  | .builtin n, _, C => some (C, [], undef, .builtin n)
  | .fn id, _, C => some (C, [], undef, .fn id)
  | .ident x, _, C =>
    let r := compileId C x
    some (r.1, r.2.1, undef, r.2.2)
  | .unary op e, _, C =>
    -- compile_unary_expr: expr.rs 820–914
    match typeofName op e with
    | some n => some (C.bumpT, [Inst.un C.temp op.il (.builtin n)], undef, .var C.temp)
    | none => do
      let (C, is, _, a) ← compileR e none C
      some (C.bumpT, is ++ [Inst.un C.temp op.il a], undef, .var C.temp)
  | .arith op l r, _, C => do
    -- compile_binary_expr: expr.rs 746–750
    let (C, is, _, a) ← compileR l none C
    let (C, js, _, b) ← compileR r none C
    some (C.bumpT, is ++ js ++ [Inst.bin C.temp a op.il b], undef, .var C.temp)
  | .cmp op l r, _, C => do
    let o ← op.il (isNullish l || isNullish r)
    let (C, is, _, a) ← compileR l none C
    let (C, js, _, b) ← compileR r none C
    some (C.bumpT, is ++ js ++ [Inst.bin C.temp a o b], undef, .var C.temp)
  | .log op l r, _, C => do
    -- compile_logical_expr: expr.rs 493–511; compile_nullish_coalescing_expr: expr.rs 523–546
    let conv := C.label
    let res := C.temp
    let (C, is, _, a) ← compileR l none C.bumpL.bumpT
    match op with
    | .and => do
      let (C, js, _, b) ← compileR r none C
      some (C, is ++ [Inst.varAssign res a, Inst.condGoto a dummyLabel conv] ++ js ++
        [Inst.varAssign res b, label conv], undef, .var res)
    | .or => do
      let (C, js, _, b) ← compileR r none C
      some (C, is ++ [Inst.varAssign res a, Inst.condGoto a conv dummyLabel] ++ js ++
        [Inst.varAssign res b, label conv], undef, .var res)
    | .nullish => do
      let t := C.temp
      let (C, js, _, b) ← compileR r none C.bumpT
      some (C, is ++ [Inst.varAssign res a, Inst.bin t (.var res) .looseEq (.const .null),
        Inst.condGoto (.var t) dummyLabel conv] ++ js ++ [Inst.varAssign res b, label conv], undef, .var res)
  | .comma l r, _, C => do
    -- compile_comma_expr: expr.rs 549–552
    let (C, is, _, _) ← compileR l none C
    let (C, js, _, b) ← compileR r none C
    some (C, is ++ js, undef, b)
  | .cond c t f, _, C => do
    -- compile_cond_expr: expr.rs 753–781
    let (C, is, _, a) ← compileR c none C
    let res := C.temp
    let cons := C.label
    let after := C.label + 1
    let (C, js, _, b) ← compileR f none C.bumpT.bumpL.bumpL
    let (C, ks, _, d) ← compileR t none C
    some (C, is ++ [Inst.condGoto a cons dummyLabel] ++ js ++ [Inst.varAssign res b, goto after, label cons] ++ ks ++
      [Inst.varAssign res d, label after], undef, .var res)
  | .update inc pre e, _, C => do
    -- compile_update_expr: expr.rs 783–818
    let (C, is, _, a) ← compileR e none C
    let v ← a.maybeVar
    let o := if inc then BinOp.add else BinOp.sub
    if pre then some (C, is ++ [Inst.bin v a o one], undef, a)
    else some (C.bumpT, is ++ [Inst.varAssign C.temp a, Inst.bin v a o one], undef, .var C.temp)
  | .assign op x e, _, C => do
    -- compile_assignment, PatKind::Ident: expr.rs 184–333
    let (C, d) ← dest C x
    let v := C.temp
    let C := C.bumpT
    match op with
    | .plain => do
      let (C, is, _, a) ← compileR e none C
      some (C, is ++ [Inst.varAssign v a, d.store a], undef, .var v)
    | .log op =>
      let (C, ls, old) := d.load C
      let conv := C.label
      let (C, js) := logJump C.bumpL op v conv
      let (C, is, _, a) ← compileR e none C
      some (C, ls ++ [Inst.varAssign v old] ++ js ++ is ++ [Inst.varAssign v a, d.store a, label conv], undef, .var v)
    | .arith op => do
      let (C, is, _, a) ← compileR e none C
      let (C, ls, old) := d.load C
      some (C, is ++ ls ++ [Inst.bin v old op.assignIl a, d.store (.var v)], undef, .var v)
  | .assignMember op o k e, _, C => do
    -- compile_assignment, PatKind::AssignTarget: expr.rs 334–459
    let (C, is, _, a) ← compileR o none C
    let (C, js, _, b) ← compileR k none C
    let v := C.temp
    let C := C.bumpT
    match op with
    | .plain => do
      let (C, ks, _, d) ← compileR e none C
      some (C, is ++ js ++ ks ++ [Inst.varAssign v d, Inst.propAssign a b d], undef, .var v)
    | .log op =>
      let old := C.temp
      let C := C.bumpT
      let conv := C.label
      let (C, ls) := logJump C.bumpL op v conv
      let (C, ks, _, d) ← compileR e none C
      some (C, is ++ js ++ [Inst.bin old a .getProp b, Inst.varAssign v (.var old)] ++ ls ++ ks ++
        [Inst.varAssign v d, Inst.propAssign a b d, label conv], undef, .var v)
    | .arith op => do
      let (C, ks, _, d) ← compileR e none C
      let old := C.temp
      some (C.bumpT, is ++ js ++ ks ++ [Inst.bin old a .getProp b, Inst.bin v (.var old) op.assignIl d,
        Inst.propAssign a b (.var v)], undef, .var v)
  | .member o k optional, chain, C => do
    -- compile_member_expr: expr.rs 916–938
    let (C, did, l) := setupChain C chain
    let (C, is, _, a) ← compileR o (some l) C
    let (C, js) := chainJump C optional a l
    let res := C.temp
    let (C, ks, _, b) ← compileR k none C.bumpT
    let (C, ls) := completeChain C did res l
    some (C, is ++ js ++ ks ++ [Inst.bin res a .getProp b] ++ ls, a, .var res)
  | .call c as optional, chain, C =>
    -- compile_call_expr: expr.rs 946–956, 996–1025
    if isEval c then none
    else do
      let (C, did, l) := setupChain C chain
      let (C, is, this, f) ← compileR c (some l) C
      let res := C.temp
      let (C, js) := chainJump C.bumpT optional f l
      let (C, ks, bs) ← compileArgs as C
      let (C, ls) := completeChain C did res l
      some (C, is ++ js ++ ks ++ [Inst.call (some res) f this bs (spreadsFrom 2 as)] ++ ls, undef, .var res)
  | .new c as, chain, C => do
    -- compile_call_expr for `new`: expr.rs 958–994
    let (C, did, l) := setupChain C chain
    let (C, is, _, a) ← compileR c none C
    let res := C.temp
    let (C, ks, bs) ← compileArgs as C.bumpT
    let (C, ls) := completeChain C did res l
    some (C, is ++ ks ++ [Inst.call (some res) (.builtin newCallee) a bs (spreadsFrom 2 as)] ++ ls, undef, .var res)
  | .internal n as, _, C => do
    -- the lines are listed at `Expr.internal`
    let (C, ks, bs) ← compileArgs as C
    some (C.bumpT, ks ++ [Inst.call (some C.temp) (.builtin n) undef bs (spreadsFrom 2 as)], undef, .var C.temp)

/-- Arguments in order: expr.rs 1013–1022. -/
def compileArgs : Args → S → Option (S × List Inst × List Arg)
  | .nil, C => some (C, [], [])
  | .cons _ e rest, C => do
    let (C, is, _, a) ← compileR e none C
    let (C, js, as) ← compileArgs rest C
    some (C, is ++ js, a :: as)
end

/-- `compile_expr`: expr.rs 1231–1233. -/
def compileE (e : Expr) (C : S) : Option (S × List Inst × Arg) := do
  let (C, is, _, a) ← compileR e none C
  some (C, is, a)

/-- The targets of jumps, latest first: `break_stack`, `continue_stack`, `label_stack` and `return_label` of
il/s2i/mod.rs 42–45. -/
structure Ctx where
  brk : List Nat := []
  cont : List Nat := []
  labels : List (Nat × Nat × Option Nat) := []
  ret : Option Nat := none

/-- A loop: stmt.rs 512–519, 671–679 and 712–720. -/
def Ctx.enterLoop (x : Ctx) (name : Option Nat) (brk cont : Nat) : Ctx :=
  { x with brk := brk :: x.brk, cont := cont :: x.cont,
           labels := match name with
             | some n => (n, brk, some cont) :: x.labels
             | none => x.labels }

/-- The kinds of statements that `StmtKind::Labeled` hands its label to: stmt.rs 798–823. -/
def Stmt.isLoop : Stmt → Bool
  | .while_ .. | .doWhile .. | .for_ .. => true
  | _ => false

/-- Whether there is a clause. -/
def Cases.isNil : Cases → Bool
  | .nil => true
  | _ => false

def Cases.length : Cases → Nat
  | .nil => 0
  | .cons _ _ cs => cs.length + 1

/-- The position of `default`: stmt.rs 603–612. -/
def Cases.defaultAt : Cases → Option Nat
  | .nil => none
  | .cons none _ _ => some 0
  | .cons (some _) _ cs => cs.defaultAt.map (· + 1)

/-- Whether a clause has a test. -/
def Cases.hasTest : Cases → Bool
  | .nil => false
  | .cons none _ cs => cs.hasTest
  | .cons (some _) _ _ => true

/-- The tests of the clauses, the first clause having label `l`; the last test goes to `other` if it fails:
stmt.rs 613–639. -/
def compileTests (d other : Nat) : Cases → Nat → S → Option (S × List Inst)
  | .nil, _, C => some (C, [])
  | .cons none _ cs, l, C => compileTests d other cs (l + 1) C
  | .cons (some e) _ cs, l, C => do
    let (C, is, a) ← compileE e C
    let t := C.temp
    let (C, js) ← compileTests d other cs (l + 1) C.bumpT
    some (C, is ++ [Inst.bin t (.var d) .strictEq a,
      Inst.condGoto (.var t) l (if cs.hasTest then dummyLabel else other)] ++ js)

/-- An expression that may be missing. -/
def compileOpt : Option Expr → S → Option (S × List Inst × Option Arg)
  | none, C => some (C, [], none)
  | some e, C => do
    let (C, is, a) ← compileE e C
    some (C, is, some a)

mutual
/-- `compile_stmt`: stmt.rs 733–900.  `name` is the label of a loop. -/
def compileS (x : Ctx) (name : Option Nat) : Stmt → S → Option (S × List Inst)
  | .expr e, C => do
    let (C, is, _) ← compileE e C
    some (C, is)
  | .empty, C => some (C, [])
  | .decl kind v init, C =>
    -- compile_var_decl: stmt.rs 279–317, with PatKind::Ident of compile_destructuring: stmt.rs 227–242
    match init with
    | some e => do
      let t := C.temp
      let (C, is, a) ← compileE e C.bumpT
      let (C, d) ← dest C v
      some (C, is ++ [Inst.varAssign t a, d.store (.var t)])
    | none =>
      match kind with
      | .const => none
      | .let_ => do
        let (C, d) ← dest C v
        some (C, [d.store undef])
      | .var => some (C, [])
  | .block ss, C => compileSs x ss C
  | .ifThen c t, C => do
    -- compile_if_stmt: stmt.rs 571–578
    let (C, is, a) ← compileE c C
    let after := C.label
    let (C, js) ← compileS x none t C.bumpL
    some (C, is ++ [Inst.condGoto a dummyLabel after] ++ js ++ [label after])
  | .ifElse c t f, C => do
    -- compile_if_stmt: stmt.rs 559–570
    let (C, is, a) ← compileE c C
    let cons := C.label
    let after := C.label + 1
    let (C, js) ← compileS x none f C.bumpL.bumpL
    let (C, ks) ← compileS x none t C
    some (C, is ++ [Inst.condGoto a cons dummyLabel] ++ js ++ [goto after, label cons] ++ ks ++ [label after])
  | .while_ c b, C => do
    -- compile_while_stmt: stmt.rs 698–731
    let before := C.label
    let after := C.label + 1
    let (C, is, a) ← compileE c C.bumpL.bumpL
    let (C, js) ← compileS (x.enterLoop name after before) none b C
    some (C, [label before] ++ is ++ [Inst.condGoto a dummyLabel after] ++ js ++ [goto before, label after])
  | .doWhile b c, C => do
    -- compile_do_while_stmt: stmt.rs 660–696
    let entry := C.label
    let next := C.label + 1
    let after := C.label + 2
    let (C, js) ← compileS (x.enterLoop name after next) none b C.bumpL.bumpL.bumpL
    let (C, is, a) ← compileE c C
    some (C, [label entry] ++ js ++ [label next] ++ is ++ [Inst.condGoto a entry after, label after])
  | .for_ init c post b, C => do
    -- compile_for_stmt: stmt.rs 483–534
    let (C, hs) ← compileS x none init C
    let entry := C.label
    let next := C.label + 1
    let after := C.label + 2
    let (C, is, a) ← compileOpt c C.bumpL.bumpL.bumpL
    let (C, js) ← compileS (x.enterLoop name after next) none b C
    let (C, ks, _) ← compileOpt post C
    some (C, hs ++ [label entry] ++ is ++ (a.map (fun a => Inst.condGoto a dummyLabel after)).toList ++ js ++
      [label next] ++ ks ++ [goto entry, label after])
  | .switch e cs, C => do
    -- compile_switch_stmt: stmt.rs 583–658
    let d := C.temp
    let (C, is, a) ← compileE e C.bumpT
    if cs.isNil then some (C, is ++ [Inst.varAssign d a])
    else do
      let after := C.label
      let first := C.label + 1
      let other := (cs.defaultAt.map (first + ·)).getD after
      let (C, js) ← compileTests d other cs first { C with label := first + cs.length }
      let (C, ks) ← compileCases { x with brk := after :: x.brk } cs first C
      some (C, is ++ [Inst.varAssign d a] ++ js ++ (if cs.hasTest then [] else [goto other]) ++ ks ++ [label after])
  | .brk none, C => do
    -- stmt.rs 759–764
    let l ← x.brk.head?
    some (C, [goto l])
  | .brk (some n), C => do
    -- stmt.rs 745–758
    let e ← x.labels.lookup n
    some (C, [goto e.1])
  | .cont none, C => do
    -- stmt.rs 788–793
    let l ← x.cont.head?
    some (C, [goto l])
  | .cont (some n), C => do
    -- stmt.rs 768–787
    let e ← x.labels.lookup n
    let l ← e.2
    some (C, [goto l])
  | .labeled n b, C =>
    -- stmt.rs 796–838
    if b.isLoop then compileS x (some n) b C
    else do
      let after := C.label
      let (C, is) ← compileS { x with labels := (n, after, none) :: x.labels } none b C.bumpL
      some (C, is ++ [label after])
  | .ret e, C => do
    -- stmt.rs 839–848
    let (C, is, _) ← compileOpt e C
    let l ← x.ret
    some (C, is ++ [goto l])
  | .throw e, C => do
    -- stmt.rs 849–856
    let (C, is, _) ← compileE e C
    let l ← x.ret
    some (C, is ++ [goto l])

/-- Statements in order: stmt.rs 738–743. -/
def compileSs (x : Ctx) : Stmts → S → Option (S × List Inst)
  | .nil, C => some (C, [])
  | .cons s ss, C => do
    let (C, is) ← compileS x none s C
    let (C, js) ← compileSs x ss C
    some (C, is ++ js)

/-- The clauses of a `switch`, the first one having label `l`: stmt.rs 646–651. -/
def compileCases (x : Ctx) : Cases → Nat → S → Option (S × List Inst)
  | .nil, _, C => some (C, [])
  | .cons _ b cs, l, C => do
    let (C, is) ← compileSs x b C
    let (C, js) ← compileCases x cs (l + 1) C
    some (C, [label l] ++ is ++ js)
end

/-- `Vec::dedup`: of equal elements next to each other one is kept. -/
def dedup : List VarType → List VarType
  | [] => []
  | [x] => [x]
  | x :: y :: r => if x = y then dedup (y :: r) else x :: dedup (y :: r)

/-- The symbols of variables declared with `var` that are not parameters, in order: stmt.rs 145–160. -/
def hoisted (b : Body) : List VarType :=
  dedup ((b.stmts.varNames.filter (fun x => match x.symbol with
    | some s => !b.params.contains s
    | none => false)).mergeSort (fun a b => a.symbol.getD 0 ≤ b.symbol.getD 0))

/-- `hoist_var_decls`: stmt.rs 162–173. -/
def compileHoisted : List VarType → S → Option (S × List Inst)
  | [], C => some (C, [])
  | v :: vs, C => do
    let (C, d) ← dest C v
    let (C, is) ← compileHoisted vs C
    some (C, d.store undef :: is)

/-- `translate_body`: stmt.rs 903–919, starting as `HirSourceToInst::new`: il/s2i/mod.rs 56–72.  The
instructions, the label counter and the counter of variables. -/
def translate (b : Body) : Option (List Inst × Nat × Nat) := do
  let C : S := { temp := 0, label := 1, syms := [] }
  let ret := if b.isFn then some C.label else none
  let C := if b.isFn then C.bumpL else C
  let (C, hs) ← compileHoisted (hoisted b) C
  let (C, is) ← compileSs { ret := ret } b.stmts C
  some (hs ++ is ++ (ret.map label).toList, C.label, C.temp)

end Verif.Lower
