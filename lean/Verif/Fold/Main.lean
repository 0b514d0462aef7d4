import Verif.Fold.Shape
/-!
# Folding keeps the meaning
-/

namespace Verif.Fold
open Verif.Expr (Expr Args Elems Parts Members BinOp UnOp ArithOp ascii Str Num Val Host M)
open Verif.Expr (bind_bind pure_bind' bind_pure' bind_apply)
open Verif.Expr.Ecma (Ref eval value valueOf getValue isValue thisOf typeofArg arguments elements template members)
open Verif.Eval (Const F64 Lib)

section
variable {E R I P C W : Type} [DecidableEq R] (H : Host F64 E R I P C W) (c : Expr.Ctx F64 E) (n : Nat)

/-! ## Parentheses and constants -/

theorem eval_paren (x : Expr F64 P C) : eval H c true n (.paren x) = (do
    match ← eval H c true n x with
    | none => pure (some (.value .undef))
    | some r => pure (some r)) := by
  simp only [eval]
  congr 1
  funext o
  cases o <;> rfl

theorem eval_paren2 (x : Expr F64 P C) : eval H c true n (.paren (.paren x)) = eval H c true n (.paren x) := by
  rw [eval_paren H c n (.paren x), eval_paren, bind_bind]
  congr 1
  funext o
  cases o <;> rfl

theorem value_paren (x : Expr F64 P C) : value H c true n (.paren x) = value H c true n x := by
  unfold value valueOf
  rw [eval_paren, bind_bind]
  congr 1
  funext o
  cases o <;> rfl

theorem eval_wrap {x y : Expr F64 P C} (mark : Bool) (h : eval H c true n x = eval H c true n y) :
    eval H c true n (wrap mark x) = eval H c true n (wrap mark y) := by
  cases mark
  · exact h
  · simp only [wrap, if_true, eval_paren, h]

theorem value_wrap (mark : Bool) (x : Expr F64 P C) : value H c true n (wrap mark x) = value H c true n x := by
  cases mark
  · rfl
  · exact value_paren H c n x

theorem eval_paren_wrap (mark : Bool) (x : Expr F64 P C) :
    eval H c true n (wrap mark (.paren x)) = eval H c true n (.paren x) := by
  cases mark
  · rfl
  · exact eval_paren2 H c n x

theorem safeVoid_eval (x : Expr F64 P C) (h : safeVoidArg x = true) :
    ∃ v, eval H c true n x = isValue (pure v) := by
  match x with
  | .null | .bool _ | .num _ | .str _ | .big _ => exact ⟨_, by simp only [eval]; rfl⟩
  | .paren x =>
    obtain ⟨v, e⟩ := safeVoid_eval x h
    exact ⟨v, by rw [eval_paren, e]; rfl⟩
  | .this_ | .newTarget | .template _ | .arr _ | .object _ | .func _ _ | .id _ | .member _ _ _ | .index _ _ _
  | .call _ _ _ | .new_ _ | .unary _ _ | .typeof_ _ | .delete_ _ | .update _ _ _ | .assign _ _ | .assignPat _ _
  | .addAssign _ _ | .and _ _ | .or _ _ | .nullish _ _ | .binary _ _ _ | .cond _ _ _ | .arith _ _ _ | .bitNot _
  | .comma _ _ | .other => cases h

theorem const_eval (x : Expr F64 P C) (v : Const) (h : constVal x = some v) :
    eval H c true n x = isValue (pure (val v)) := by
  match x with
  | .null | .bool _ | .num _ | .str _ | .big _ => cases h; simp only [eval, val]
  | .unary op x =>
    cases op with
    | void =>
      simp only [constVal] at h
      split at h
      · rename_i hs
        cases h
        obtain ⟨v, e⟩ := safeVoid_eval H c n x hs
        simp only [eval, e, value_isValue]
        rfl
      · cases h
    | _ => cases h
  | .paren x =>
    rw [eval_paren, const_eval x v h]; rfl
  | .this_ | .newTarget | .template _ | .arr _ | .object _ | .func _ _ | .id _ | .member _ _ _ | .index _ _ _
  | .call _ _ _ | .new_ _ | .typeof_ _ | .delete_ _ | .update _ _ _ | .assign _ _ | .assignPat _ _
  | .addAssign _ _ | .and _ _ | .or _ _ | .nullish _ _ | .binary _ _ _ | .cond _ _ _ | .arith _ _ _ | .bitNot _
  | .comma _ _ | .other => cases h

theorem const_value {x : Expr F64 P C} {v : Const} (h : constVal x = some v) : value H c true n x = pure (val v) := by
  unfold value
  rw [const_eval H c n x v h, value_isValue]

theorem const_kind (x : Expr F64 P C) (v : Const) (h : constVal x = some v) : kind x = .value := by
  match x with
  | .paren x => exact const_kind x v h
  | .null | .bool _ | .num _ | .str _ | .big _ | .unary _ _
  | .this_ | .newTarget | .template _ | .arr _ | .object _ | .func _ _
  | .call _ _ _ | .new_ _ | .typeof_ _ | .delete_ _ | .update _ _ _ | .assign _ _ | .assignPat _ _
  | .addAssign _ _ | .and _ _ | .or _ _ | .nullish _ _ | .binary _ _ _ | .cond _ _ _ | .arith _ _ _ | .bitNot _
  | .comma _ _ | .other => rfl
  | .id _ | .member _ _ _ | .index _ _ _ => cases h

theorem literal_value (v : Const) (h : ∀ i, v ≠ .bigint i) : value H c true n (literal v : Expr F64 P C) = pure (val v) := by
  cases v with
  | bigint i => exact absurd rfl (h i)
  | undef => exact const_value H c n (by rfl)
  | _ => exact const_value H c n (by rfl)

/-! ## Truth -/

/-- Whether the value of an expression is true. -/
def truth (x : Expr F64 P C) : M F64 W Bool := do pure (Expr.Ecma.toBoolean H (← value H c true n x))

theorem value_and (x y : Expr F64 P C) : value H c true n (.and x y) = (do
    let a ← value H c true n x
    if Expr.Ecma.toBoolean H a then value H c true n y else pure a) := by
  simp only [value, eval, value_isValue]

theorem value_or (x y : Expr F64 P C) : value H c true n (.or x y) = (do
    let a ← value H c true n x
    if Expr.Ecma.toBoolean H a then pure a else value H c true n y) := by
  simp only [value, eval, value_isValue]

theorem value_cond (x y z : Expr F64 P C) : value H c true n (.cond x y z) = (do
    if ← truth H c n x then value H c true n y else value H c true n z) := by
  simp only [truth, bind_bind, pure_bind']
  simp only [value, eval, value_isValue]

theorem truth_and (x y : Expr F64 P C) : truth H c n (.and x y) = (do
    if ← truth H c n x then truth H c n y else pure false) := by
  simp only [truth, value_and, bind_bind, pure_bind']
  congr 1
  funext a
  cases h : Expr.Ecma.toBoolean H a <;> simp [h, pure_bind']

theorem truth_or (x y : Expr F64 P C) : truth H c n (.or x y) = (do
    if ← truth H c n x then pure true else truth H c n y) := by
  simp only [truth, value_or, bind_bind, pure_bind']
  congr 1
  funext a
  cases h : Expr.Ecma.toBoolean H a <;> simp [h, pure_bind']

theorem truth_cond (x y z : Expr F64 P C) : truth H c n (.cond x y z) = (do
    if ← truth H c n x then truth H c n y else truth H c n z) := by
  rw [truth, value_cond, bind_bind]
  congr 1
  funext a
  cases a <;> rfl

theorem truth_wrap (mark : Bool) (x : Expr F64 P C) : truth H c n (wrap mark x) = truth H c n x := by
  unfold truth; rw [value_wrap]

theorem lit_truth (b : Bool) (x : Expr F64 P C) (h : isLit b x = true) : truth H c n x = pure b := by
  match x with
  | .bool a =>
    simp only [isLit, beq_iff_eq] at h
    subst h
    unfold truth; rw [const_value H c n (x := .bool a) (v := .bool a) rfl]; rfl
  | .paren x =>
    unfold truth; rw [value_paren]; exact lit_truth b x h
  | .null | .num _ | .str _ | .big _ | .unary _ _
  | .this_ | .newTarget | .template _ | .arr _ | .object _ | .func _ _ | .id _ | .member _ _ _ | .index _ _ _
  | .call _ _ _ | .new_ _ | .typeof_ _ | .delete_ _ | .update _ _ _ | .assign _ _ | .assignPat _ _
  | .addAssign _ _ | .and _ _ | .or _ _ | .nullish _ _ | .binary _ _ _ | .cond _ _ _ | .arith _ _ _ | .bitNot _
  | .comma _ _ | .other => cases h

/-! ## Nodes with an operand that is more than a value -/

theorem eval_member (opt : Bool) (x : Expr F64 P C) (name : Str) : eval H c true n (.member opt x name) = (do
    match ← chainOf H (eval H c true n x) with
    | none => pure none
    | some base => if opt && Expr.Ecma.Nullish base then pure none else pure (some (.prop base (.str name)))) := by
  simp only [eval, chainOf, bind_bind]
  congr 1
  funext o
  cases o with
  | none => rfl
  | some r => simp only [bind_bind, pure_bind']

theorem eval_index (opt : Bool) (x y : Expr F64 P C) : eval H c true n (.index opt x y) = (do
    match ← chainOf H (eval H c true n x) with
    | none => pure none
    | some base => if opt && Expr.Ecma.Nullish base then pure none else do
        let key ← value H c true n y
        pure (some (.prop base key))) := by
  simp only [eval, chainOf, bind_bind, value]
  congr 1
  funext o
  cases o with
  | none => rfl
  | some r => simp only [bind_bind, pure_bind']

theorem eval_call (opt : Bool) (f : Expr F64 P C) (as : Args F64 P C) : eval H c true n (.call opt f as) = (do
    match ← calleeOf H (eval H c true n f) with
    | none => pure none
    | some (g, this) => if opt && Expr.Ecma.Nullish g then pure none else do
        let as ← arguments H c true n as []
        isValue (Expr.Ecma.call H g this as)) := by
  simp only [eval, calleeOf, bind_bind, Expr.Ecma.within, Bool.true_or, if_true, pure_bind']
  congr 1
  funext o
  cases o with
  | none => rfl
  | some r => simp only [bind_bind, pure_bind']

theorem eval_new {x : Expr F64 P C} (h : isCall x = false) : eval H c true n (.new_ x) = isValue (do
    let g ← value H c true n x
    Expr.Ecma.construct H g []) := by
  cases x <;> first | (cases h; done) | (simp only [eval, Expr.Ecma.within, Bool.true_or, if_true, pure_bind', value])

/-! ## Targets -/

variable (L : Lib)

omit [DecidableEq R] in
theorem fold_paren_target (x : Expr F64 P C) (h : kind x ≠ .value) : ∃ y, fold L true .value x = .paren y := by
  match x with
  | .paren x =>
    simp only [fold]
    exact fold_paren_target x h
  | .id _ => exact ⟨_, by simp only [fold, wrap, if_true]; rfl⟩
  | .member _ _ _ => exact ⟨_, by simp only [fold, wrap, if_true]; rfl⟩
  | .index _ _ _ => exact ⟨_, by simp only [fold, wrap, if_true]; rfl⟩
  | .null | .bool _ | .num _ | .str _ | .big _ | .unary _ _
  | .this_ | .newTarget | .template _ | .arr _ | .object _ | .func _ _
  | .call _ _ _ | .new_ _ | .typeof_ _ | .delete_ _ | .update _ _ _ | .assign _ _ | .assignPat _ _
  | .addAssign _ _ | .and _ _ | .or _ _ | .nullish _ _ | .binary _ _ _ | .cond _ _ _ | .arith _ _ _ | .bitNot _
  | .comma _ _ | .other => exact absurd rfl h

omit [DecidableEq R] in
theorem named_fold {y : Expr F64 P C} (h : KeepsName L y) (name : Str) (m : M F64 W (Val F64)) :
    Expr.Ecma.named H c true (fold L false .value y) name m = Expr.Ecma.named H c true y name m := by
  unfold Expr.Ecma.named; rw [h]

omit [DecidableEq R] in
theorem assigned_fold {x y : Expr F64 P C} (hx : kind x ≠ .value) (hy : isName x = true → KeepsName L y)
    (m : M F64 W (Val F64)) :
    Expr.Ecma.assigned H c true (fold L false .value x) (fold L false .value y) m = Expr.Ecma.assigned H c true x y m := by
  cases x with
  | id name =>
    simp only [fold, wrap, Bool.false_eq_true, if_false, Expr.Ecma.assigned]
    exact named_fold H c L (hy rfl) name m
  | paren x =>
    obtain ⟨z, e⟩ := fold_paren_target L x hx
    simp only [fold, e, Expr.Ecma.assigned]
  | member opt x name => simp only [fold, wrap, Bool.false_eq_true, if_false, Expr.Ecma.assigned]
  | index opt x y => simp only [fold, wrap, Bool.false_eq_true, if_false, Expr.Ecma.assigned]
  | _ => exact absurd rfl hx

/-! ## The induction -/

/-- Folding keeps the value, in a condition the truth, and what the expression refers to. -/
structure Keeps (x : Expr F64 P C) : Prop where
  value : ∀ mark, Expr.Ecma.value H c true n (fold L mark .value x) = Expr.Ecma.value H c true n x
  truth : ∀ mark, Fold.truth H c n (fold L mark .condition x) = Fold.truth H c n x
  ref : ∀ mark, eval H c true n (fold L mark .value x) = eval H c true n (wrap mark x) ∨ (kind x = .value ∧ short x = false)

/-- The same for the two parts of a call, for `new`. -/
def Good (x : Expr F64 P C) : Prop :=
  (Safe L x → Keeps H c n L x) ∧ ∀ opt f as, x = .call opt f as →
    (Safe L f → Keeps H c n L f) ∧ (SafeArgs L as → ∀ acc, arguments H c true n (foldArgs L as) acc = arguments H c true n as acc)

variable {H c n L}

theorem Good.mk {x : Expr F64 P C} (hc : isCall x = false) (h : Safe L x → Keeps H c n L x) : Good H c n L x :=
  ⟨h, fun opt f as e => by subst e; cases hc⟩

/-- A node that stays. -/
theorem Keeps.kept {x y : Expr F64 P C} (h : ∀ mark ctx, fold L mark ctx x = wrap mark y)
    (e : eval H c true n y = eval H c true n x) : Keeps H c n L x := by
  have hv : Expr.Ecma.value H c true n y = Expr.Ecma.value H c true n x := by unfold Expr.Ecma.value; rw [e]
  refine ⟨fun mark => ?_, fun mark => ?_, fun mark => .inl ?_⟩
  · rw [h, value_wrap, hv]
  · rw [h, truth_wrap]; unfold Fold.truth; rw [hv]
  · rw [h]; exact eval_wrap H c n mark e

/-- A node that gives a value, and whose operands are folded as values. -/
theorem Keeps.plain {x : Expr F64 P C} (hk : kind x = .value) (hs : short x = false)
    (h : ∀ mark, fold L mark .condition x = fold L mark .value x)
    (e : ∀ mark, Expr.Ecma.value H c true n (fold L mark .value x) = Expr.Ecma.value H c true n x) : Keeps H c n L x :=
  ⟨e, fun mark => by rw [h]; unfold Fold.truth; rw [e], fun _ => .inr ⟨hk, hs⟩⟩

theorem Keeps.chain {x : Expr F64 P C} (k : Keeps H c n L x) (h : short (fold L false .value x) = true → short x = true) :
    chainOf H (eval H c true n (fold L false .value x)) = chainOf H (eval H c true n x) := by
  rcases k.ref false with e | ⟨_, e⟩
  · rw [e]; rfl
  · have e' : short (fold L false .value x) = false := by
      cases hs : short (fold L false .value x) with
      | false => rfl
      | true => rw [h hs] at e; cases e
    have := k.value false
    unfold Expr.Ecma.value at this
    rw [chain_value H (eval_short H c n _ e'), chain_value H (eval_short H c n _ e), this]

theorem Keeps.callee {x : Expr F64 P C} (k : Keeps H c n L x) (h : short (fold L false .value x) = true → short x = true)
    (hp : kind (fold L false .value x) = .prop → kind x = .prop) :
    calleeOf H (eval H c true n (fold L false .value x)) = calleeOf H (eval H c true n x) := by
  rcases k.ref false with e | ⟨ek, e⟩
  · rw [e]; rfl
  · have e' : short (fold L false .value x) = false := by
      cases hs : short (fold L false .value x) with
      | false => rfl
      | true => rw [h hs] at e; cases e
    have hk : kind (fold L false .value x) ≠ .prop := fun hk => by rw [hp hk] at ek; cases ek
    have := k.value false
    unfold Expr.Ecma.value at this
    rw [callee_value H (eval_short H c n _ e') hk (eval_kind H c n _),
      callee_value H (eval_short H c n _ e) (by rw [ek]; simp) (eval_kind H c n _), this]

theorem Keeps.target {x : Expr F64 P C} (k : Keeps H c n L x) (h : kind x ≠ .value) :
    eval H c true n (fold L false .value x) = eval H c true n x := by
  rcases k.ref false with e | ⟨ek, _⟩
  · rw [e]; rfl
  · exact absurd ek h

theorem Keeps.typeofArg {x : Expr F64 P C} (k : Keeps H c n L x) (h : kind (fold L false .value x) = .name → kind x = .name) :
    typeofArg H (eval H c true n (fold L false .value x)) = typeofArg H (eval H c true n x) := by
  rcases k.ref false with e | ⟨ek, _⟩
  · rw [e]; rfl
  · have hk : kind (fold L false .value x) ≠ .name := fun hk => by rw [h hk] at ek; cases ek
    have := k.value false
    unfold Expr.Ecma.value at this
    rw [typeof_value H hk (eval_kind H c n _), typeof_value H (by rw [ek]; simp) (eval_kind H c n x), this]

theorem Keeps.delete {x : Expr F64 P C} (k : Keeps H c n L x) (h : kind (fold L false .value x) = kind x) :
    Expr.Ecma.delete H c true (eval H c true n (fold L false .value x)) = Expr.Ecma.delete H c true (eval H c true n x) := by
  rcases k.ref false with e | ⟨ek, _⟩
  · rw [e]; rfl
  · have := k.value false
    unfold Expr.Ecma.value at this
    have e1 := eval_kind H c n (fold L false .value x)
    have e2 := eval_kind H c n x
    rw [h, ek] at e1
    rw [ek] at e2
    rw [delete_value H c e1, delete_value H c e2, this]

/-- The value of a constant that an operand has become. -/
theorem Keeps.const {x : Expr F64 P C} (k : Keeps H c n L x) {v : Const} (h : constVal (fold L false .value x) = some v) :
    Expr.Ecma.value H c true n x = pure (val v) := by
  rw [← k.value false]; exact const_value H c n h

theorem truthiness_value (S : Standard L H.num) {x : Expr F64 P C} {t : Bool} (h : truthiness x = some t) :
    ∃ v, value H c true n x = pure v ∧ Expr.Ecma.toBoolean H v = t := by
  simp only [truthiness, Option.map_eq_some_iff] at h
  obtain ⟨v, hv, rfl⟩ := h
  exact ⟨val v, const_value H c n hv, truthy_val S v⟩

theorem truthiness_truth (S : Standard L H.num) {x : Expr F64 P C} {t : Bool} (h : truthiness x = some t) :
    truth H c n x = pure t := by
  obtain ⟨v, e, rfl⟩ := truthiness_value (c := c) (n := n) S h
  unfold truth; rw [e]; rfl

omit [DecidableEq R] in
theorem binaryConst_result {op : BinOp} {l r v : Const} (h : binaryConst L op l r = some v) : ∀ i, v ≠ .bigint i := by
  intro i e
  subst e
  revert h
  unfold binaryConst
  cases op <;> cases l <;> cases r <;> simp [ofBool]

theorem Keeps.value' {x : Expr F64 P C} (k : Keeps H c n L x) (mark : Bool) :
    valueOf H (eval H c true n (fold L mark .value x)) = valueOf H (eval H c true n x) := k.value mark

theorem keeps_binary (S : Standard L H.num) (hL : Shortest L) {op : BinOp} {x y : Expr F64 P C} (kx : Keeps H c n L x)
    (ky : Keeps H c n L y) : Keeps H c n L (.binary op x y) := by
  refine .plain rfl rfl (fun _ => by simp only [fold]) fun mark => ?_
  have hv : Expr.Ecma.value H c true n (.binary op x y) = (do
      let a ← Expr.Ecma.value H c true n x
      let b ← Expr.Ecma.value H c true n y
      Expr.Ecma.binary H true n op a b) := by simp only [Expr.Ecma.value, eval, value_isValue]
  simp only [fold]
  cases hz : foldBinary L op (fold L false .value x) (fold L false .value y) with
  | none =>
    simp only [orKeep]
    rw [value_wrap]
    simp only [Expr.Ecma.value, eval, value_isValue, kx.value', ky.value']
  | some z =>
    simp only [orKeep]
    unfold foldBinary at hz
    cases h1 : constVal (fold L false .value x) with
    | none => rw [h1] at hz; cases hz
    | some l =>
      cases h2 : constVal (fold L false .value y) with
      | none => rw [h1, h2] at hz; cases hz
      | some r =>
        rw [h1, h2] at hz
        cases hb : binaryConst L op l r with
        | none => simp [hb] at hz
        | some v =>
          simp [hb] at hz
          subst hz
          rw [hv, kx.const h1, ky.const h2, literal_value H c n v (binaryConst_result hb)]
          simp only [pure_bind']
          exact (binary_val S hL n hb).symm

theorem keeps_arith (S : Standard L H.num) {op : ArithOp} {x y : Expr F64 P C} (kx : Keeps H c n L x)
    (ky : Keeps H c n L y) (hp : op = .pow → ∀ a b, constVal (fold L false .value x) = some (.num a) →
        constVal (fold L false .value y) = some (.num b) → ¬ Eval.ExpNan a b) : Keeps H c n L (.arith op x y) := by
  refine .plain rfl rfl (fun _ => by simp only [fold]) fun mark => ?_
  have hv : Expr.Ecma.value H c true n (.arith op x y) = (do
      let a ← Expr.Ecma.value H c true n x
      let b ← Expr.Ecma.value H c true n y
      Expr.Ecma.arithOp H op a b) := by
    simp only [Expr.Ecma.value, eval, value_isValue, Expr.Ecma.within, Bool.true_or, if_true, pure_bind']
  simp only [fold]
  cases hz : foldArith L op (fold L false .value x) (fold L false .value y) with
  | none =>
    simp only [orKeep]
    rw [value_wrap]
    simp only [Expr.Ecma.value, eval, value_isValue, kx.value', ky.value']
  | some z =>
    simp only [orKeep]
    unfold foldArith at hz
    split at hz
    · rename_i l r h1 h2
      cases hz
      rw [hv, kx.const h1, ky.const h2, const_value H c n (x := .num _) rfl]
      simp only [pure_bind']
      exact (arith_val S op l r fun e => hp e l r h1 h2).symm
    · cases hz

theorem keeps_nullish {x y : Expr F64 P C} (kx : Keeps H c n L x)
    (ky : Keeps H c n L y) : Keeps H c n L (.nullish x y) := by
  refine .plain rfl rfl (fun _ => by simp only [fold]) fun mark => ?_
  have hv : Expr.Ecma.value H c true n (.nullish x y) = (do
      let a ← Expr.Ecma.value H c true n x
      if Expr.Ecma.Nullish a then Expr.Ecma.value H c true n y else pure a) := by
    simp only [Expr.Ecma.value, eval, value_isValue]
  simp only [fold]
  cases h1 : constVal (fold L false .value x) with
  | none =>
    simp only [foldNullish, h1, Option.map_none, orKeep]
    rw [value_wrap]
    simp only [Expr.Ecma.value, eval, value_isValue, kx.value', ky.value']
  | some l =>
    simp only [foldNullish, h1, Option.map_some, orKeep]
    rw [hv, kx.const h1]
    simp only [pure_bind', nullish_val]
    cases isNullish l with
    | true => exact ky.value false
    | false => exact const_value H c n h1

/-- `&&`, in both contexts. -/
theorem keeps_and (S : Standard L H.num) {x y : Expr F64 P C} (kx : Keeps H c n L x)
    (ky : Keeps H c n L y) : Keeps H c n L (.and x y) := by
  refine ⟨fun mark => ?_, fun mark => ?_, fun _ => .inr ⟨rfl, rfl⟩⟩
  · simp only [fold]
    cases h1 : truthiness (fold L false .value x) with
    | none =>
      simp only [foldAnd, h1, reduceCtorEq, false_and, if_false, orKeep]
      rw [value_wrap, value_and, value_and, kx.value, ky.value]
    | some t =>
      simp only [foldAnd, h1, orKeep]
      obtain ⟨v, e, ht⟩ := truthiness_value (c := c) (n := n) S h1
      rw [value_and, ← kx.value false, e, pure_bind', ht]
      cases t
      · exact e
      · exact ky.value false
  · simp only [fold]
    rw [truth_and]
    cases h1 : truthiness (fold L false .condition x) with
    | none =>
      simp only [foldAnd, h1, true_and]
      split
      · rename_i hl
        simp only [orKeep]
        rw [kx.truth, ← ky.truth false, lit_truth H c n true _ hl]
        rw [show (fun t : Bool => if t = true then (pure true : M F64 W Bool) else pure false) = pure from
          funext fun t => by cases t <;> rfl, bind_pure']
      · simp only [orKeep]
        rw [truth_wrap, truth_and, kx.truth, ky.truth]
    | some t =>
      simp only [foldAnd, h1, orKeep]
      have e := truthiness_truth (c := c) (n := n) S h1
      rw [← kx.truth false, e, pure_bind']
      cases t
      · exact e
      · exact ky.truth false

theorem keeps_or (S : Standard L H.num) {x y : Expr F64 P C} (kx : Keeps H c n L x)
    (ky : Keeps H c n L y) : Keeps H c n L (.or x y) := by
  refine ⟨fun mark => ?_, fun mark => ?_, fun _ => .inr ⟨rfl, rfl⟩⟩
  · simp only [fold]
    cases h1 : truthiness (fold L false .value x) with
    | none =>
      simp only [foldOr, h1, reduceCtorEq, false_and, if_false, orKeep]
      rw [value_wrap, value_or, value_or, kx.value, ky.value]
    | some t =>
      simp only [foldOr, h1, orKeep]
      obtain ⟨v, e, ht⟩ := truthiness_value (c := c) (n := n) S h1
      rw [value_or, ← kx.value false, e, pure_bind', ht]
      cases t
      · exact ky.value false
      · exact e
  · simp only [fold]
    rw [truth_or]
    cases h1 : truthiness (fold L false .condition x) with
    | none =>
      simp only [foldOr, h1, true_and]
      split
      · rename_i hl
        simp only [orKeep]
        rw [kx.truth, ← ky.truth false, lit_truth H c n false _ hl]
        rw [show (fun t : Bool => if t = true then (pure true : M F64 W Bool) else pure false) = pure from
          funext fun t => by cases t <;> rfl, bind_pure']
      · simp only [orKeep]
        rw [truth_wrap, truth_or, kx.truth, ky.truth]
    | some t =>
      simp only [foldOr, h1, orKeep]
      have e := truthiness_truth (c := c) (n := n) S h1
      rw [← kx.truth false, e, pure_bind']
      cases t
      · exact ky.truth false
      · exact e

theorem keeps_cond (S : Standard L H.num) {x y z : Expr F64 P C} (kx : Keeps H c n L x)
    (ky : Keeps H c n L y) (kz : Keeps H c n L z) : Keeps H c n L (.cond x y z) := by
  refine ⟨fun mark => ?_, fun mark => ?_, fun _ => .inr ⟨rfl, rfl⟩⟩ <;> simp only [fold]
  · rw [value_cond]
    cases h1 : truthiness (fold L false .condition x) with
    | none =>
      simp only [Option.map_none, orKeep]
      rw [value_wrap, value_cond, kx.truth, ky.value, kz.value]
    | some t =>
      simp only [Option.map_some, orKeep]
      rw [← kx.truth false, truthiness_truth (c := c) (n := n) S h1, pure_bind']
      cases t
      · exact kz.value false
      · exact ky.value false
  · rw [truth_cond]
    cases h1 : truthiness (fold L false .condition x) with
    | none =>
      simp only [Option.map_none, orKeep]
      rw [truth_wrap, truth_cond, kx.truth, ky.truth, kz.truth]
    | some t =>
      simp only [Option.map_some, orKeep]
      rw [← kx.truth false, truthiness_truth (c := c) (n := n) S h1, pure_bind']
      cases t
      · exact kz.truth false
      · exact ky.truth false

theorem keeps_unary (S : Standard L H.num) {op : UnOp} {x : Expr F64 P C} (kx : Keeps H c n L x) :
    Keeps H c n L (.unary op x) := by
  refine .plain rfl rfl (fun _ => by simp only [fold]) fun mark => ?_
  have hv (y : Expr F64 P C) : Expr.Ecma.value H c true n (.unary op y) = (do
      let v ← Expr.Ecma.value H c true n y
      Expr.Ecma.unary H op v) := by simp only [Expr.Ecma.value, eval, value_isValue]
  simp only [fold]
  split
  · rename_i ho
    subst ho
    unfold foldNot
    cases h1 : truthiness (fold L false .value x) with
    | none => simp only []; rw [value_wrap, hv, hv, kx.value]
    | some t =>
      simp only []
      obtain ⟨v, e, ht⟩ := truthiness_value (c := c) (n := n) S h1
      rw [value_wrap, hv, ← kx.value false, e, pure_bind', const_value H c n (x := .bool _) rfl]
      simp only [Expr.Ecma.unary, ht, val]
  · rw [value_wrap, hv, hv, kx.value]

theorem keeps_typeof {x : Expr F64 P C} (kx : Keeps H c n L x)
    (h : kind (fold L false .value x) = .name → kind x = .name) : Keeps H c n L (.typeof_ x) := by
  refine .plain rfl rfl (fun _ => by simp only [fold]) fun mark => ?_
  have hv (y : Expr F64 P C) : Expr.Ecma.value H c true n (.typeof_ y) = (do
      let v ← typeofArg H (eval H c true n y)
      pure (.str (← Expr.Ecma.typeName H v))) := by simp only [Expr.Ecma.value, eval, value_isValue]
  simp only [fold, foldTypeof]
  cases h1 : constVal (fold L false .value x) with
  | none => simp only []; rw [value_wrap, hv, hv, kx.typeofArg h]
  | some v =>
    simp only []
    rw [value_wrap, hv, ← kx.typeofArg h, const_value H c n (x := .str _) rfl]
    rw [const_eval H c n _ v h1, show typeofArg H (isValue (R := R) (pure (val v))) = (pure (val v) : M F64 W _) from by
      cases v <;> rfl, pure_bind', typeName_val]
    rfl

mutual
theorem good (S : Standard L H.num) (hL : Shortest L) (x : Expr F64 P C) : Good H c n L x := by
  cases x with
  | this_ => exact .mk rfl fun _ => .kept (fun _ _ => by simp only [fold]) rfl
  | newTarget => exact .mk rfl fun _ => .kept (fun _ _ => by simp only [fold]) rfl
  | null => exact .mk rfl fun _ => .kept (fun _ _ => by simp only [fold]) rfl
  | bool b => exact .mk rfl fun _ => .kept (fun _ _ => by simp only [fold]) rfl
  | num a => exact .mk rfl fun _ => .kept (fun _ _ => by simp only [fold]) rfl
  | big i => exact .mk rfl fun _ => .kept (fun _ _ => by simp only [fold]) rfl
  | str s => exact .mk rfl fun _ => .kept (fun _ _ => by simp only [fold]) rfl
  | func a f => exact .mk rfl fun _ => .kept (fun _ _ => by simp only [fold]) rfl
  | id y => exact .mk rfl fun _ => .kept (fun _ _ => by simp only [fold]) rfl
  | other => exact .mk rfl fun _ => .kept (fun _ _ => by simp only [fold]) rfl
  | template ps =>
    have ih := good_parts S hL ps
    exact .mk rfl fun h => .kept (y := .template (foldParts L ps)) (fun _ _ => by simp only [fold]) (by
      simp only [Safe] at h
      simp only [eval, ih h])
  | arr es =>
    have ih := good_elems S hL es
    exact .mk rfl fun h => .kept (y := .arr (foldElems L es)) (fun _ _ => by simp only [fold]) (by
      simp only [Safe] at h
      simp only [eval, ih h])
  | object ms =>
    have ih := good_members S hL ms
    exact .mk rfl fun h => .kept (y := .object (foldMembers L ms)) (fun _ _ => by simp only [fold]) (by
      simp only [Safe] at h
      simp only [eval, ih h])
  | paren x =>
    have ih := good S hL x
    refine .mk rfl fun h => ?_
    simp only [Safe] at h
    have k := ih.1 h
    refine ⟨fun mark => ?_, fun mark => ?_, fun mark => ?_⟩
    · simp only [fold]; rw [k.value, value_paren]
    · simp only [fold]; rw [k.truth]; unfold Fold.truth; rw [value_paren]
    · simp only [fold]
      rcases k.ref true with e | e
      · exact .inl (by rw [e, eval_paren_wrap]; rfl)
      · exact .inr ⟨e.1, rfl⟩
  | member opt x name =>
    have ih := good S hL x
    refine .mk rfl fun h => ?_
    simp only [Safe] at h
    exact .kept (y := .member opt (fold L false .value x) name) (fun _ _ => by simp only [fold]) (by rw [eval_member, eval_member, (ih.1 h.1).chain h.2])
  | index opt x y =>
    have ih := good S hL x
    have ih' := good S hL y
    refine .mk rfl fun h => ?_
    simp only [Safe] at h
    exact .kept (y := .index opt (fold L false .value x) (fold L false .value y)) (fun _ _ => by simp only [fold]) (by
      rw [eval_index, eval_index, (ih.1 h.1).chain h.2.2, (ih'.1 h.2.1).value])
  | call opt f as =>
    have ih := good S hL f
    have ih' := good_args S hL as
    refine ⟨fun h => ?_, fun o g bs e => ?_⟩
    · simp only [Safe] at h
      refine .kept (y := .call opt (fold L false .value f) (foldArgs L as)) (fun _ _ => by simp only [fold]) ?_
      rw [eval_call, eval_call, (ih.1 h.1).callee h.2.2.1 h.2.2.2]
      simp only [ih' h.2.1]
    · cases e
      exact ⟨ih.1, ih'⟩
  | new_ x =>
    have ih := good S hL x
    refine .mk rfl fun h => .kept (y := .new_ (fold L false .value x)) (fun _ _ => by simp only [fold]) ?_
    cases hc : isCall x with
    | true =>
      cases x <;> first | (cases hc; done) | skip
      rename_i o f as
      simp only [Safe] at h
      obtain ⟨h1, h2⟩ := ih.2 o f as rfl
      simp only [fold, wrap, Bool.false_eq_true, if_false, eval, (h1 h.1).value', h2 h.2]
    | false =>
      have h' : Safe L x ∧ isCall (fold L false .value x) = false := by
        cases x <;> first | (cases hc; done) | (simpa only [Safe] using h)
      rw [eval_new H c n hc, eval_new H c n h'.2, (ih.1 h'.1).value]
  | unary op x =>
    have ih := good S hL x
    refine .mk rfl fun h => ?_
    simp only [Safe] at h
    exact keeps_unary S (ih.1 h)
  | typeof_ x =>
    have ih := good S hL x
    refine .mk rfl fun h => ?_
    simp only [Safe] at h
    exact keeps_typeof (ih.1 h.1) h.2
  | delete_ x =>
    have ih := good S hL x
    refine .mk rfl fun h => .kept (y := .delete_ (fold L false .value x)) (fun _ _ => by simp only [fold]) ?_
    simp only [Safe] at h
    simp only [eval, (ih.1 h.1).delete h.2]
  | update pre inc x =>
    have ih := good S hL x
    cases pre with
    | true =>
      refine .mk rfl fun h => .kept (y := .update true inc (fold L false .value x)) (fun _ _ => by simp only [fold]) ?_
      simp only [Safe] at h
      simp only [eval, (ih.1 h.1).target h.2]
    | false => exact .mk rfl fun _ => .kept (fun _ _ => by simp only [fold]) rfl
  | assign x y =>
    have ih := good S hL x
    have ih' := good S hL y
    refine .mk rfl fun h => .kept (y := .assign (fold L false .value x) (fold L false .value y)) (fun _ _ => by simp only [fold]) ?_
    simp only [Safe] at h
    simp only [eval, (ih.1 h.1).target h.2.2.1, (ih'.1 h.2.1).value', assigned_fold H c L h.2.2.1 h.2.2.2]
  | assignPat p y =>
    have ih := good S hL y
    refine .mk rfl fun h => .kept (y := .assignPat p (fold L false .value y)) (fun _ _ => by simp only [fold]) ?_
    simp only [Safe] at h
    simp only [eval, (ih.1 h).value']
  | addAssign x y =>
    have ih := good S hL x
    have ih' := good S hL y
    refine .mk rfl fun h => .kept (y := .addAssign (fold L false .value x) (fold L false .value y)) (fun _ _ => by simp only [fold]) ?_
    simp only [Safe] at h
    simp only [eval, (ih.1 h.1).target h.2.2, (ih'.1 h.2.1).value']
  | and x y =>
    have ih := good S hL x
    have ih' := good S hL y
    refine .mk rfl fun h => ?_
    simp only [Safe] at h
    exact keeps_and S (ih.1 h.1) (ih'.1 h.2)
  | or x y =>
    have ih := good S hL x
    have ih' := good S hL y
    refine .mk rfl fun h => ?_
    simp only [Safe] at h
    exact keeps_or S (ih.1 h.1) (ih'.1 h.2)
  | nullish x y =>
    have ih := good S hL x
    have ih' := good S hL y
    refine .mk rfl fun h => ?_
    simp only [Safe] at h
    exact keeps_nullish (ih.1 h.1) (ih'.1 h.2)
  | binary op x y =>
    have ih := good S hL x
    have ih' := good S hL y
    refine .mk rfl fun h => ?_
    simp only [Safe] at h
    exact keeps_binary S hL (ih.1 h.1) (ih'.1 h.2)
  | arith op x y =>
    have ih := good S hL x
    have ih' := good S hL y
    refine .mk rfl fun h => ?_
    simp only [Safe] at h
    exact keeps_arith S (ih.1 h.1) (ih'.1 h.2.1) h.2.2
  | cond x y z =>
    have ih := good S hL x
    have ih' := good S hL y
    have ih'' := good S hL z
    refine .mk rfl fun h => ?_
    simp only [Safe] at h
    exact keeps_cond S (ih.1 h.1) (ih'.1 h.2.1) (ih''.1 h.2.2)
  | bitNot x =>
    have ih := good S hL x
    refine .mk rfl fun h => .kept (y := .bitNot (fold L false .value x)) (fun _ _ => by simp only [fold]) ?_
    simp only [Safe] at h
    simp only [eval, (ih.1 h).value']
  | comma x y =>
    have ih := good S hL x
    have ih' := good S hL y
    refine .mk rfl fun h => .kept (y := .comma (fold L false .value x) (fold L false .value y)) (fun _ _ => by simp only [fold]) ?_
    simp only [Safe] at h
    simp only [eval, (ih.1 h.1).value', (ih'.1 h.2).value']

theorem good_args (S : Standard L H.num) (hL : Shortest L) (as : Args F64 P C) (h : SafeArgs L as) (acc : List (Val F64)) :
    arguments H c true n (foldArgs L as) acc = arguments H c true n as acc := by
  cases as with
  | nil => simp only [foldArgs]
  | cons x as =>
    have ih := good S hL x
    have ih' := good_args S hL as
    simp only [SafeArgs] at h
    simp only [foldArgs, arguments, (ih.1 h.1).value', ih' h.2]
  | spread x as =>
    have ih := good S hL x
    have ih' := good_args S hL as
    simp only [SafeArgs] at h
    simp only [foldArgs, arguments, (ih.1 h.1).value', ih' h.2]

theorem good_elems (S : Standard L H.num) (hL : Shortest L) (es : Elems F64 P C) (h : SafeElems L es)
    (acc : List (Option (Val F64))) : elements H c true n (foldElems L es) acc = elements H c true n es acc := by
  cases es with
  | nil => simp only [foldElems]
  | hole es =>
    have ih' := good_elems S hL es
    simp only [SafeElems] at h
    simp only [foldElems, elements, ih' h]
  | cons x es =>
    have ih := good S hL x
    have ih' := good_elems S hL es
    simp only [SafeElems] at h
    simp only [foldElems, elements, (ih.1 h.1).value', ih' h.2]
  | spread x es =>
    have ih := good S hL x
    have ih' := good_elems S hL es
    simp only [SafeElems] at h
    simp only [foldElems, elements, (ih.1 h.1).value', ih' h.2]

theorem good_parts (S : Standard L H.num) (hL : Shortest L) (ps : Parts F64 P C) (h : SafeParts L ps) :
    template H c true n (foldParts L ps) = template H c true n ps := by
  cases ps with
  | nil => simp only [foldParts]
  | text s ps =>
    have ih' := good_parts S hL ps
    simp only [SafeParts] at h
    simp only [foldParts, template, ih' h]
  | subst x ps =>
    have ih := good S hL x
    have ih' := good_parts S hL ps
    simp only [SafeParts] at h
    simp only [foldParts, template, (ih.1 h.1).value', ih' h.2]

theorem good_members (S : Standard L H.num) (hL : Shortest L) (ms : Members F64 P C) (h : SafeMembers L ms) (o : Nat) :
    members H c true n o (foldMembers L ms) = members H c true n o ms := by
  cases ms with
  | nil => simp only [foldMembers]
  | prop k x ms =>
    have ih := good S hL x
    have ih' := good_members S hL ms
    simp only [SafeMembers] at h
    simp only [foldMembers, members, (ih.1 h.1).value', ih' h.2.1]
    congr 1
    unfold Expr.Ecma.property
    split
    · rfl
    · rename_i hk
      rw [named_fold H c L (h.2.2 (by simpa using hk))]
  | computed k x ms =>
    have ih := good S hL x
    have ik := good S hL k
    have ih' := good_members S hL ms
    simp only [SafeMembers] at h
    simp only [foldMembers, members, (ik.1 h.1).value', (ih.1 h.2.1).value', ih' h.2.2.1, named_fold H c L h.2.2.2]
  | method d k f ms =>
    have ih' := good_members S hL ms
    simp only [SafeMembers] at h
    simp only [foldMembers, members, ih' h]
  | computedMethod d k f ms =>
    have ik := good S hL k
    have ih' := good_members S hL ms
    simp only [SafeMembers] at h
    simp only [foldMembers, members, (ik.1 h.1).value', ih' h.2]
  | shorthand y ms =>
    have ih' := good_members S hL ms
    simp only [SafeMembers] at h
    simp only [foldMembers, members, ih' h]
  | spread x ms =>
    have ih := good S hL x
    have ih' := good_members S hL ms
    simp only [SafeMembers] at h
    simp only [foldMembers, members, (ih.1 h.1).value', ih' h.2]
end

end

end Verif.Fold
