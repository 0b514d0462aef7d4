import Verif.Expr.Lemmas
/-!
# The cases that are left out

`eval false` gives up in the cases in which the interpreter is known to differ from ECMA-262; otherwise it is
`eval true`, which is ECMA-262.
-/

namespace Verif.Expr

section
variable {F W A : Type}

theorem Sub.ite (p : Prop) [Decidable p] {a b a' b' : M F W A} (h : Sub a a') (h' : Sub b b') :
    Sub (if p then a else b) (if p then a' else b') := by
  split <;> assumption

theorem Sub.apply {m s : M F W A} (h : Sub m s) {w : W} (hf : ¬ Fatal (m w)) : m w = s w := (h w).resolve_left hf
end

section
variable {F E R I P C W : Type} [DecidableEq R] (H : Host F E R I P C W) (c : Ctx F E) (n : Nat)

theorem looselyEqual_sub (a b : Val F) : Sub (Ecma.looselyEqual H false a b) (Ecma.looselyEqual H true a b) := by
  unfold Ecma.looselyEqual
  split
  · exact Sub.refl _
  · exact (Sub.within _).bind fun _ => Sub.refl _

theorem comparands_sub (a b : Val F) : Sub (Ecma.comparands H false a b) (Ecma.comparands H true a b) := by
  unfold Ecma.comparands
  refine (Sub.refl _).bind fun x => ?_
  refine (Sub.within _).bind fun _ => ?_
  refine (Sub.refl _).bind fun y => ?_
  exact (Sub.within _).bind fun _ => Sub.refl _

theorem compare_sub (op : BinOp) (a b : Val F) : Sub (Ecma.compare H false op a b) (Ecma.compare H true op a b) := by
  unfold Ecma.compare
  exact (comparands_sub H a b).bind fun _ => Sub.refl _

theorem arith_sub (op : BinOp) (a b : Val F) : Sub (Ecma.arith H false op a b) (Ecma.arith H true op a b) := by
  unfold Ecma.arith
  refine (Sub.refl _).bind fun x => ?_
  exact (Sub.within _).bind fun _ => Sub.refl _

theorem add_sub (a b : Val F) : Sub (Ecma.add H false a b) (Ecma.add H true a b) := by
  unfold Ecma.add
  refine (Sub.refl _).bind fun x => ?_
  refine (Sub.refl _).bind fun y => ?_
  split
  · exact Sub.refl _
  · exact Sub.refl _
  · exact arith_sub H _ _ _

theorem instanceOf_sub (v t : Val F) : Sub (Ecma.instanceOf H false n v t) (Ecma.instanceOf H true n v t) := by
  induction n generalizing v t with
  | zero => exact Sub.refl _
  | succ n ih =>
    cases t with
    | obj o =>
      refine (Sub.refl (M.ask (H.callable o))).bind fun b => ?_
      refine (Sub.within b).bind fun _ => ?_
      refine (Sub.refl (Ecma.getMethod H o (.sym H.hasInstance))).bind fun m => ?_
      cases m with
      | some h => exact Sub.refl _
      | none =>
        refine (Sub.refl (M.ask (H.callable o))).bind fun b => ?_
        refine (Sub.within b).bind fun _ => ?_
        refine (Sub.refl (M.ask (H.callable o))).bind fun b => ?_
        refine Sub.ite _ ?_ (Sub.refl _)
        refine (Sub.refl (M.ask (H.constructor o))).bind fun b => ?_
        refine (Sub.within b).bind fun _ => ?_
        refine (Sub.refl (M.ask (H.bound o))).bind fun b => ?_
        cases b with
        | some t => exact ih v (.obj t)
        | none => exact Sub.refl _
    | _ => exact Sub.refl _

theorem binary_sub (op : BinOp) (a b : Val F) : Sub (Ecma.binary H false n op a b) (Ecma.binary H true n op a b) := by
  cases op with
  | eq => exact (looselyEqual_sub H a b).bind fun _ => Sub.refl _
  | ne => exact (looselyEqual_sub H a b).bind fun _ => Sub.refl _
  | instanceof => exact (instanceOf_sub H n a b).bind fun _ => Sub.refl _
  | add => exact add_sub H a b
  | mul => exact arith_sub H _ a b
  | sub => exact arith_sub H _ a b
  | div => exact arith_sub H _ a b
  | rem => exact arith_sub H _ a b
  | lt => exact compare_sub H .lt a b
  | gt => exact compare_sub H .gt a b
  | le => exact compare_sub H .le a b
  | ge => exact compare_sub H .ge a b
  | _ => exact Sub.refl _

theorem putValue_sub (r : Ecma.Ref F R) (v : Val F) : Sub (Ecma.putValue H c false r v) (Ecma.putValue H c true r v) := by
  cases r with
  | name r x =>
    refine (Sub.refl (M.ask (H.resolve c.env x))).bind fun _ => ?_
    exact (Sub.within _).bind fun _ => Sub.refl _
  | _ => exact Sub.refl _

theorem named_sub (x : Expr F P C) (name : Str) {m s : M F W (Val F)} (h : Sub m s) :
    Sub (Ecma.named H c false x name m) (Ecma.named H c true x name s) := by
  unfold Ecma.named
  split
  · exact (Sub.within _).bind fun _ => Sub.refl _
  · exact h

theorem assigned_sub (x y : Expr F P C) {m s : M F W (Val F)} (h : Sub m s) :
    Sub (Ecma.assigned H c false x y m) (Ecma.assigned H c true x y s) := by
  unfold Ecma.assigned
  split
  · exact named_sub H c y _ h
  · exact h

theorem valueOf_sub {m s : M F W (Option (Ecma.Ref F R))} (h : Sub m s) : Sub (Ecma.valueOf H m) (Ecma.valueOf H s) :=
  h.bind fun _ => Sub.refl _

theorem isValue_sub {m s : M F W (Val F)} (h : Sub m s) : Sub (Ecma.isValue (R := R) m) (Ecma.isValue s) :=
  h.bind fun _ => Sub.refl _

theorem delete_sub {m s : M F W (Option (Ecma.Ref F R))} (h : Sub m s) :
    Sub (Ecma.delete H c false m) (Ecma.delete H c true s) := by
  refine h.bind fun r => ?_
  rcases r with _ | r
  · exact Sub.refl _
  · cases r with
    | value v => exact Sub.refl _
    | name r x => exact (Sub.within _).bind fun _ => Sub.refl _
    | prop b k =>
      refine (Sub.refl (Ecma.toObject H b)).bind fun o => ?_
      refine (Sub.refl (Ecma.toPropertyKey H k)).bind fun key => ?_
      refine (Sub.refl (M.run (H.delete o key))).bind fun ok => ?_
      exact (Sub.within _).bind fun _ => Sub.refl _

theorem update_sub (pre inc : Bool) {m s : M F W (Option (Ecma.Ref F R))} (h : Sub m s) :
    Sub (Ecma.update H c false pre inc m) (Ecma.update H c true pre inc s) := by
  refine h.bind fun r => ?_
  cases r with
  | none => exact Sub.refl _
  | some r =>
    refine (Sub.refl (Ecma.getValue H r)).bind fun v => ?_
    refine (Sub.refl (Ecma.toNumeric H v)).bind fun v => ?_
    cases v with
    | inl a => exact (putValue_sub H c _ _).bind fun _ => Sub.refl _
    | inr i => exact (putValue_sub H c _ _).bind fun _ => Sub.refl _

theorem property_sub (o : Nat) (k : Str) (x : Expr F P C) {m s : M F W (Val F)} (h : Sub m s) :
    Sub (Ecma.property H c false o k x m) (Ecma.property H c true o k x s) := by
  unfold Ecma.property
  refine Sub.ite _ ?_ ?_
  · refine (Sub.within _).bind fun _ => ?_
    exact h.bind fun _ => Sub.refl _
  · exact (named_sub H c x k h).bind fun _ => Sub.refl _

mutual
theorem eval_sub : ∀ x : Expr F P C, Sub (Ecma.eval H c false n x) (Ecma.eval H c true n x)
  | .this_ => Sub.refl _
  | .newTarget => Sub.refl _
  | .null => Sub.refl _
  | .bool _ => Sub.refl _
  | .num _ => Sub.refl _
  | .big _ => Sub.refl _
  | .str _ => Sub.refl _
  | .template ps => isValue_sub ((template_sub ps).bind fun _ => Sub.refl _)
  | .arr es => isValue_sub ((elements_sub es []).bind fun _ => Sub.refl _)
  | .object ms => isValue_sub ((Sub.refl (M.run H.object)).bind fun o => (members_sub o ms).bind fun _ => Sub.refl _)
  | .func _ _ => Sub.refl _
  | .id _ => Sub.refl _
  | .paren x => (eval_sub x).bind fun _ => Sub.refl _
  | .member _ x _ => (eval_sub x).bind fun _ => Sub.refl _
  | .index opt x y => by
    refine (eval_sub x).bind fun r => ?_
    cases r with
    | none => exact Sub.refl _
    | some r =>
      refine (Sub.refl (Ecma.getValue H r)).bind fun b => ?_
      refine Sub.ite _ (Sub.refl _) ?_
      exact (valueOf_sub H (eval_sub y)).bind fun _ => Sub.refl _
  | .call opt f as => by
    simp only [Ecma.eval]
    refine (Sub.within _).bind fun _ => ?_
    refine (eval_sub f).bind fun r => ?_
    cases r with
    | none => exact (Sub.within _).bind fun _ => Sub.refl _
    | some r =>
      refine (Sub.refl (Ecma.getValue H r)).bind fun b => ?_
      refine Sub.ite _ (Sub.refl _) ?_
      exact (arguments_sub as []).bind fun _ => Sub.refl _
  | .new_ x => by
    have gx := eval_sub x
    cases x with
    | call opt f as =>
      simp only [Ecma.eval]
      refine isValue_sub ((valueOf_sub H (eval_sub f)).bind fun _ => ?_)
      exact (arguments_sub as []).bind fun _ => Sub.refl _
    | _ =>
      refine isValue_sub ((Sub.within _).bind fun _ => ?_)
      exact (valueOf_sub H gx).bind fun _ => Sub.refl _
  | .unary op x => isValue_sub ((valueOf_sub H (eval_sub x)).bind fun _ => Sub.refl _)
  | .typeof_ x => isValue_sub ((Sub.bind (eval_sub x) fun _ => Sub.refl _ : Sub _ (Ecma.typeofArg H _)).bind fun _ => Sub.refl _)
  | .delete_ x => isValue_sub ((delete_sub H c (eval_sub x)).bind fun _ => Sub.refl _)
  | .update pre inc x => isValue_sub (update_sub H c pre inc (eval_sub x))
  | .assign x y => by
    simp only [Ecma.eval]
    refine isValue_sub ((eval_sub x).bind fun r => ?_)
    cases r with
    | none => exact Sub.refl _
    | some r =>
      refine (assigned_sub H c x y (valueOf_sub H (eval_sub y))).bind fun v => ?_
      exact (putValue_sub H c r v).bind fun _ => Sub.refl _
  | .assignPat p y => isValue_sub ((valueOf_sub H (eval_sub y)).bind fun _ => Sub.refl _)
  | .addAssign x y => by
    simp only [Ecma.eval]
    refine isValue_sub ((eval_sub x).bind fun r => ?_)
    cases r with
    | none => exact Sub.refl _
    | some r =>
      refine (Sub.refl (Ecma.getValue H r)).bind fun a => ?_
      refine (valueOf_sub H (eval_sub y)).bind fun b => ?_
      refine (add_sub H a b).bind fun v => ?_
      exact (putValue_sub H c r v).bind fun _ => Sub.refl _
  | .and x y => isValue_sub ((valueOf_sub H (eval_sub x)).bind fun _ =>
      Sub.ite _ (valueOf_sub H (eval_sub y)) (Sub.refl _))
  | .or x y => isValue_sub ((valueOf_sub H (eval_sub x)).bind fun _ =>
      Sub.ite _ (Sub.refl _) (valueOf_sub H (eval_sub y)))
  | .nullish x y => isValue_sub ((valueOf_sub H (eval_sub x)).bind fun _ =>
      Sub.ite _ (valueOf_sub H (eval_sub y)) (Sub.refl _))
  | .binary op x y => isValue_sub ((valueOf_sub H (eval_sub x)).bind fun a =>
      (valueOf_sub H (eval_sub y)).bind fun b => binary_sub H n op a b)
  | .cond x y z => isValue_sub ((valueOf_sub H (eval_sub x)).bind fun _ =>
      Sub.ite _ (valueOf_sub H (eval_sub y)) (valueOf_sub H (eval_sub z)))
  | .arith op x y => isValue_sub ((Sub.within _).bind fun _ => (valueOf_sub H (eval_sub x)).bind fun _ =>
      (valueOf_sub H (eval_sub y)).bind fun _ => Sub.refl _)
  | .bitNot x => isValue_sub ((Sub.within _).bind fun _ => (valueOf_sub H (eval_sub x)).bind fun _ => Sub.refl _)
  | .comma x y => isValue_sub ((Sub.within _).bind fun _ => (valueOf_sub H (eval_sub x)).bind fun _ =>
      valueOf_sub H (eval_sub y))
  | .other => Sub.refl _

theorem arguments_sub : ∀ (as : Args F P C) (acc : List (Val F)),
    Sub (Ecma.arguments H c false n as acc) (Ecma.arguments H c true n as acc)
  | .nil, _ => Sub.refl _
  | .cons x as, _ => (valueOf_sub H (eval_sub x)).bind fun _ => arguments_sub as _
  | .spread x as, _ => (valueOf_sub H (eval_sub x)).bind fun v =>
      (Sub.refl (M.run (H.iter v))).bind fun i =>
        (Sub.refl (Ecma.values H id n i _)).bind fun _ => arguments_sub as _

theorem elements_sub : ∀ (es : Elems F P C) (acc : List (Option (Val F))),
    Sub (Ecma.elements H c false n es acc) (Ecma.elements H c true n es acc)
  | .nil, _ => Sub.refl _
  | .hole es, _ => elements_sub es _
  | .cons x es, _ => (valueOf_sub H (eval_sub x)).bind fun _ => elements_sub es _
  | .spread x es, _ => (valueOf_sub H (eval_sub x)).bind fun v =>
      (Sub.refl (M.run (H.iter v))).bind fun i =>
        (Sub.refl (Ecma.values H some n i _)).bind fun _ => elements_sub es _

theorem template_sub : ∀ ps : Parts F P C, Sub (Ecma.template H c false n ps) (Ecma.template H c true n ps)
  | .nil => Sub.refl _
  | .text _ ps => (template_sub ps).bind fun _ => Sub.refl _
  | .subst x ps => (valueOf_sub H (eval_sub x)).bind fun v =>
      (Sub.refl (Ecma.toString H v)).bind fun _ => (template_sub ps).bind fun _ => Sub.refl _

theorem members_sub (o : Nat) : ∀ ms : Members F P C,
    Sub (Ecma.members H c false n o ms) (Ecma.members H c true n o ms)
  | .nil => Sub.refl _
  | .prop k x ms => (property_sub H c o k x (valueOf_sub H (eval_sub x))).bind fun _ => members_sub o ms
  | .computed k x ms => (valueOf_sub H (eval_sub k)).bind fun kv =>
      (Sub.refl (Ecma.toPropertyKey H kv)).bind fun key =>
        (named_sub H c x _ (valueOf_sub H (eval_sub x))).bind fun v =>
          (Sub.refl (Ecma.createProperty H o key v)).bind fun _ => members_sub o ms
  | .method d k f ms => (Sub.refl (M.run (H.method c d o (.str k) f))).bind fun _ => members_sub o ms
  | .computedMethod d k f ms => (valueOf_sub H (eval_sub k)).bind fun kv =>
      (Sub.refl (Ecma.toPropertyKey H kv)).bind fun key =>
        (Sub.refl (M.run (H.method c d o key f))).bind fun _ => members_sub o ms
  | .shorthand x ms => (Sub.refl (M.ask (H.resolve c.env x))).bind fun r =>
      (Sub.refl (Ecma.getValue H (.name r x))).bind fun v =>
        (Sub.refl (Ecma.createProperty H o (.str x) v)).bind fun _ => members_sub o ms
  | .spread x ms => (valueOf_sub H (eval_sub x)).bind fun v =>
      (Sub.refl (Ecma.copyFrom H o v)).bind fun _ => members_sub o ms
end

end

end Verif.Expr
