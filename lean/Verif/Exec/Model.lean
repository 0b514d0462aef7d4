import Verif.Exec.Syntax
/-!
# The interpreter's statements

Source: `vm-js/src/exec.rs` 46–90, 581–640, 1661–2816 and 4884–4961.  Not modelled: ticks (C24), the roots that keep
values alive (C06), stack traces, and the creation of error objects for internal errors, which here are thrown values
already.
-/

namespace Verif.Exec

/-- The state: `RuntimeEnv::lexical_env` and the world. -/
structure St (E W : Type) where
  env : E
  world : W
deriving DecidableEq

/-- A step of the interpreter: a `Result` and the new state; nothing if the fuel for loops is used up.
`Err(VmError::Throw(v))` is `.throw v`, any other error `.fatal`. -/
abbrev Ev (V E W A : Type) := St E W → Option (Out V A × St E W)

/-- `Completion::update_empty`: exec.rs 81–88. -/
def updateEmpty {V : Type} : Completion V → Option V → Completion V
  | .normal none, v => .normal v
  | .brk l none, v => .brk l v
  | .cont l none, v => .cont l v
  | c, _ => c

/-- `Completion::value`: exec.rs 66–74. -/
def valueOf {V : Type} : Completion V → Option V
  | .normal v => v
  | .throw v => some v
  | .ret v => some v
  | .brk _ v => v
  | .cont _ v => v

/-- `Completion::is_abrupt`: exec.rs 76–78. -/
def isAbrupt {V : Type} : Completion V → Bool
  | .normal _ => false
  | _ => true

/-- `loop_continues`: exec.rs 2130–2138. -/
def loopContinues {V : Type} (c : Completion V) (ls : List Nat) : Bool :=
  match c with
  | .normal _ => true
  | .cont none _ => true
  | .cont (some l) _ => ls.any (· == l)
  | _ => false

section
variable {X P D V E I W : Type} (H : Host X P D V E I W)

/-- `normalise_iteration_break`: exec.rs 2141–2146. -/
def normaliseBreak : Completion V → Completion V
  | .brk none v => .normal (some (v.getD H.undef))
  | c => c

def done {A : Type} (a : A) : Ev V E W A := fun σ => some (.ok a, σ)

/-- The operator `?`. -/
def bindE {A B : Type} (m : Ev V E W A) (f : A → Ev V E W B) : Ev V E W B := fun σ =>
  match m σ with
  | none => none
  | some (.ok a, σ') => f a σ'
  | some (.throw v, σ') => some (.throw v, σ')
  | some (.fatal, σ') => some (.fatal, σ')

/-- A step that leaves the environment alone. -/
def onWorld {A : Type} (f : E → W → Out V A × W) : Ev V E W A := fun σ =>
  some ((f σ.env σ.world).1, ⟨σ.env, (f σ.env σ.world).2⟩)

/-- `eval_expr`. -/
def evalX (x : X) : Ev V E W V := onWorld (H.expr x)

/-- The end of `eval_stmt_labelled`, which turns errors that can be caught into completions: exec.rs 1789–1863. -/
def caught (m : Ev V E W (Completion V)) : Ev V E W (Completion V) := fun σ =>
  match m σ with
  | some (.throw v, σ') => some (.ok (.throw v), σ')
  | r => r

/-- Run in another environment and restore the first one: exec.rs 1698–1707. -/
def inEnv {A : Type} (e : E) (m : Ev V E W A) : Ev V E W A := fun σ =>
  (m ⟨e, σ.world⟩).map (fun r => (r.1, ⟨σ.env, r.2.world⟩))

/-- `eval_block_stmt` around the statements: exec.rs 1693–1708. -/
def inScope {A : Type} (d : D) (m : Ev V E W A) : Ev V E W A := fun σ =>
  match H.scope d σ.env σ.world with
  | none => some (.fatal, σ)
  | some (e, w) => inEnv e m ⟨σ.env, w⟩

/-- A new environment with a bound pattern, then a list of statements, and the first environment is restored also if
the binding fails: exec.rs 2071–2091, 2406–2474. -/
def inNew {A : Type} (k : Kind) (p : P) (v : V) (m : Ev V E W A) : Ev V E W A := fun σ =>
  match H.bindNew k p v σ.env σ.world with
  | (.ok e, w) => inEnv e m ⟨σ.env, w⟩
  | (.throw t, w) => some (.throw t, ⟨σ.env, w⟩)
  | (.fatal, w) => some (.fatal, ⟨σ.env, w⟩)

/-- `eval_var_decl`: exec.rs 1875–1989.  A `var` without initializer does nothing, a `let` without one is bound to
`undefined`. -/
def evalDecl (k : Kind) : List (Declarator X P) → Ev V E W Unit
  | [] => done ()
  | ⟨p, some x⟩ :: ds => bindE (evalX H x) fun v => bindE (onWorld (H.bind k p v)) fun _ => evalDecl k ds
  | ⟨p, none⟩ :: ds =>
    match k with
    | .let_ => bindE (onWorld (H.bind k p H.undef)) fun _ => evalDecl k ds
    | _ => evalDecl k ds

/-- The loop of `while_loop_evaluation`: exec.rs 2171–2186. -/
def whileLoop (x : X) (body : Ev V E W (Completion V)) (ls : List Nat) : Nat → V → Ev V E W (Completion V)
  | 0, _ => fun _ => none
  | n + 1, v => bindE (evalX H x) fun t => fun σ =>
    if !H.truthy t σ.world then some (.ok (.normal (some v)), σ)
    else bindE body (fun c =>
      if !loopContinues c ls then done (updateEmpty c (some v))
      else whileLoop x body ls n ((valueOf c).getD v)) σ

/-- The loop of `do_while_loop_evaluation`: exec.rs 2212–2227. -/
def doLoop (x : X) (body : Ev V E W (Completion V)) (ls : List Nat) : Nat → V → Ev V E W (Completion V)
  | 0, _ => fun _ => none
  | n + 1, v => bindE body fun c =>
    if !loopContinues c ls then done (updateEmpty c (some v))
    else bindE (evalX H x) fun t => fun σ =>
      if !H.truthy t σ.world then some (.ok (.normal (some ((valueOf c).getD v))), σ)
      else doLoop x body ls n ((valueOf c).getD v) σ

/-- The first part of `for (;;)`: exec.rs 2256–2264. -/
def evalInit : Init X P → Ev V E W Unit
  | .none => done ()
  | .expr x => bindE (evalX H x) fun _ => done ()
  | .vars ds => evalDecl H .var_ ds

/-- An optional condition. -/
def evalCond : Option X → Ev V E W Bool
  | none => done true
  | some x => bindE (evalX H x) fun t => fun σ => some (.ok (H.truthy t σ.world), σ)

/-- An optional expression whose value is dropped. -/
def evalPost : Option X → Ev V E W Unit
  | none => done ()
  | some x => bindE (evalX H x) fun _ => done ()

/-- The loop of `for_triple_loop_evaluation`: exec.rs 2275–2299. -/
def forLoop (cond post : Option X) (body : Ev V E W (Completion V)) (ls : List Nat) :
    Nat → V → Ev V E W (Completion V)
  | 0, _ => fun _ => none
  | n + 1, v => bindE (evalCond H cond) fun b =>
    if !b then done (.normal (some v))
    else bindE body fun c =>
      if !loopContinues c ls then done (updateEmpty c (some v))
      else bindE (evalPost H post) fun _ => forLoop cond post body ls n ((valueOf c).getD v)

/-- Bind the variable of a `for`-`in` loop and run the body: a declaration with `let` or `const` has an environment
of its own in each iteration: exec.rs 2406–2474. -/
def inBody (l : Lhs P) (v : V) (body : Ev V E W (Completion V)) : Ev V E W (Completion V) :=
  match l with
  | .assign p => bindE (onWorld (H.bind .assign p v)) fun _ => body
  | .var_ p => bindE (onWorld (H.bind .var_ p v)) fun _ => body
  | .let_ p => inNew H .let_ p v body
  | .const_ p => inNew H .const_ p v body

/-- The loop of `for_in_loop_evaluation` over the keys: exec.rs 2402–2488. -/
def inLoop (l : Lhs P) (body : Ev V E W (Completion V)) (ls : List Nat) : List V → V → Ev V E W (Completion V)
  | [], v => done (.normal (some v))
  | k :: ks, v => bindE (inBody H l k body) fun c =>
    if !loopContinues c ls then done (updateEmpty c (some v))
    else inLoop l body ls ks ((valueOf c).getD v)

/-- `for_in_loop_evaluation`: exec.rs 2312–2489. -/
def evalForIn (l : Lhs P) (x : X) (body : Ev V E W (Completion V)) (ls : List Nat) : Ev V E W (Completion V) :=
  bindE (evalX H x) fun v =>
    if H.nullish v then done (.normal (some H.undef))
    else bindE (onWorld fun _ => H.object v) fun o =>
      bindE (onWorld fun _ => H.keys o) fun ks => inLoop H l body ls ks H.undef

/-- `iterator_close` with its result ignored: exec.rs 2613–2621, iterator.rs 259–282. -/
def closed (i : I) (σ : St E W) : St E W := ⟨σ.env, (H.close i σ.world).2⟩

/-- Bind the variable of a `for`-`of` loop, in the current environment whatever the kind: exec.rs 2549–2589. -/
def ofBind (l : Lhs P) (v : V) : Ev V E W Unit :=
  match l with
  | .assign p => onWorld (H.bind .assign p v)
  | .var_ p => onWorld (H.bind .var_ p v)
  | .let_ p => onWorld (H.bind .let_ p v)
  | .const_ p => onWorld (H.bind .const_ p v)

/-- Errors close the iterator: exec.rs 2539–2549, 2591–2600, 2602–2614. -/
def closing {A : Type} (i : I) (m : Ev V E W A) : Ev V E W A := fun σ =>
  match m σ with
  | some (.throw v, σ') => some (.throw v, closed H i σ')
  | some (.fatal, σ') => some (.fatal, closed H i σ')
  | r => r

/-- The loop of `for_of_loop_evaluation`: exec.rs 2527–2640. -/
def ofLoop (l : Lhs P) (body : Ev V E W (Completion V)) (ls : List Nat) : Nat → I → V → Ev V E W (Completion V)
  | 0, _, _ => fun _ => none
  | n + 1, i, v => bindE (closing H i (onWorld fun _ => H.step i)) fun r =>
    match r with
    | (none, _) => done (.normal (some v))
    | (some a, i) => bindE (closing H i (bindE (ofBind H l a) fun _ => body)) fun c =>
      if !loopContinues c ls then fun σ => some (.ok (updateEmpty c (some v)), closed H i σ)
      else ofLoop l body ls n i ((valueOf c).getD v)

/-- `for_of_loop_evaluation`: exec.rs 2501–2641. -/
def evalForOf (n : Nat) (l : Lhs P) (x : X) (body : Ev V E W (Completion V)) (ls : List Nat) :
    Ev V E W (Completion V) :=
  bindE (evalX H x) fun v => bindE (onWorld fun _ => H.iter v) fun i => ofLoop H l body ls n i H.undef

mutual
/-- `eval_stmt_labelled`: exec.rs 1723–1864.  `n` bounds the iterations of each loop. -/
def evalS (n : Nat) : Stmt X P D → List Nat → Ev V E W (Completion V)
  | .empty, _ => done (.normal none)
  | .expr x, _ => caught (bindE (evalX H x) fun v => done (.normal (some v)))
  | .decl k ds, _ => caught (bindE (evalDecl H k ds) fun _ => done (.normal none))
  | .func, _ => done (.normal none)
  | .block d ss, _ => caught (inScope H d (evalL n ss none))
  | .ifThen x s, _ => caught (bindE (evalX H x) fun t => fun σ =>
      if H.truthy t σ.world then evalS n s [] σ else some (.ok (.normal none), σ))
  | .ifElse x s t, _ => caught (bindE (evalX H x) fun t' => fun σ =>
      if H.truthy t' σ.world then evalS n s [] σ else evalS n t [] σ)
  | .throw x, _ => caught (bindE (evalX H x) fun v => done (.throw v))
  -- `eval_try`: exec.rs 2032–2063
  | .try_ d ss h f, _ => caught (bindE (inScope H d (evalL n ss none)) fun c =>
      bindE (evalH n h c) fun c => bindE (evalF n f c) fun c => done (updateEmpty c (some H.undef)))
  | .ret none, _ => done (.ret H.undef)
  | .ret (some x), _ => caught (bindE (evalX H x) fun v => done (.ret v))
  | .while_ x s, ls => caught (bindE (whileLoop H x (evalS n s []) ls n H.undef) fun c => done (normaliseBreak H c))
  | .doWhile s x, ls => caught (bindE (doLoop H x (evalS n s []) ls n H.undef) fun c => done (normaliseBreak H c))
  | .for_ i cond post _ ss, ls => caught (bindE (bindE (evalInit H i) fun _ =>
      forLoop H cond post (evalL n ss none) ls n H.undef) fun c => done (normaliseBreak H c))
  | .forIn l x _ ss, ls => caught (bindE (evalForIn H l x (evalL n ss none) ls) fun c => done (normaliseBreak H c))
  | .forOf l x _ ss, ls => caught (bindE (evalForOf H n l x (evalL n ss none) ls) fun c => done (normaliseBreak H c))
  -- `eval_switch`: exec.rs 2672–2816
  | .switch x d cs, _ => caught (bindE (bindE (evalX H x) fun t => inScope H d
      (bindE (evalC n cs t false H.undef) fun r =>
        match r with
        | .inr c => done c
        | .inl (_, v) => done (.normal (some v)))) fun c => done (normaliseBreak H c))
  | .switchDefault x d a b c, _ => caught (bindE (bindE (evalX H x) fun t => inScope H d
      (bindE (evalC n a t false H.undef) fun r =>
        match r with
        | .inr c => done c
        | .inl (found, v) =>
          bindE (if found then done (.inl (false, v)) else evalC n c t false v) fun r =>
            match r with
            | .inr c => done c
            | .inl (true, v) => done (.normal (some v))
            | .inl (false, v) => bindE (evalL n b none) fun r =>
              if isAbrupt r then done (updateEmpty r (some ((valueOf r).getD v)))
              else evalB n c ((valueOf r).getD v))) fun c => done (normaliseBreak H c))
  -- `eval_label`: exec.rs 2651–2670
  | .label l s, ls => caught (bindE (evalS n s (ls ++ [l])) fun c =>
      match c with
      | .brk (some t) v => if t = l then done (.normal v) else done c
      | c => done c)
  | .break_ l, _ => done (.brk l none)
  | .continue_ l, _ => done (.cont l none)

/-- `eval_stmt_list`: exec.rs 1661–1691. -/
def evalL (n : Nat) : Stmts X P D → Option V → Ev V E W (Completion V)
  | .nil, last => done (.normal last)
  | .cons s ss, last => bindE (evalS n s []) fun c =>
    match updateEmpty c last with
    | .normal v => evalL n ss (v.or last)
    | c => done c

/-- The part of `eval_try` for `catch`, and `eval_catch`: exec.rs 2035–2043, 2065–2092. -/
def evalH (n : Nat) : Handler X P D → Completion V → Ev V E W (Completion V)
  | .none, c => done c
  | .bare d ss, c =>
    match c with
    | .throw _ => inScope H d (evalL n ss none)
    | c => done c
  | .param p ss, c =>
    match c with
    | .throw v => inNew H .let_ p v (evalL n ss none)
    | c => done c

/-- The part of `eval_try` for `finally`: exec.rs 2045–2060. -/
def evalF (n : Nat) : Final X P D → Completion V → Ev V E W (Completion V)
  | .none, c => done c
  | .some d ss, c => bindE (inScope H d (evalL n ss none)) fun r => if isAbrupt r then done r else done c

/-- The loop over the `case` clauses, with `found` and `v`: exec.rs 2707–2729, 2738–2758, 2762–2782.  It ends with
them, or early with a completion. -/
def evalC (n : Nat) : Cases X P D → V → Bool → V → Ev V E W ((Bool × V) ⊕ Completion V)
  | .nil, _, found, v => done (.inl (found, v))
  | .cons x ss cs, t, found, v =>
    bindE (if found then done true else bindE (evalX H x) fun a => fun σ => some (.ok (H.equal t a σ.world), σ)) fun f =>
      if f then bindE (evalL n ss none) fun r =>
        if isAbrupt r then done (.inr (updateEmpty r (some ((valueOf r).getD v))))
        else evalC n cs t true ((valueOf r).getD v)
      else evalC n cs t false v

/-- The clauses after `default` once that has been run: exec.rs 2799–2809. -/
def evalB (n : Nat) : Cases X P D → V → Ev V E W (Completion V)
  | .nil, v => done (.normal (some v))
  | .cons _ ss cs, v => bindE (evalL n ss none) fun r =>
    if isAbrupt r then done (updateEmpty r (some ((valueOf r).getD v)))
    else evalB n cs ((valueOf r).getD v)
end

/-- The end of `exec_script_source_with_host` after instantiation: exec.rs 622–638. -/
def runScript (n : Nat) (ss : Stmts X P D) : Ev V E W V :=
  bindE (evalL H n ss none) fun c =>
    match c with
    | .normal v => done (v.getD H.undef)
    | .throw v => fun σ => some (.throw v, σ)
    | _ => fun σ => some (.fatal, σ)

/-- The body of a function: `run_ecma_function`, exec.rs 4946–4959. -/
def runFunction (n : Nat) (ss : Stmts X P D) : Ev V E W V :=
  bindE (evalL H n ss none) fun c =>
    match c with
    | .normal _ => done H.undef
    | .ret v => done v
    | .throw v => fun σ => some (.throw v, σ)
    | _ => fun σ => some (.fatal, σ)

end

end Verif.Exec
