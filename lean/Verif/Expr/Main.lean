import Verif.Expr.Sound
/-!
# Every expression
-/

namespace Verif.Expr

section
variable {F E R I P C W : Type} [DecidableEq R] (H : Host F E R I P C W) (c : Ctx F E) (n : Nat)

/-- The value of `new x` where `x` is no call. -/
theorem new_sim {x : Expr F P C} {N : Node F W} {e : M F W (Option (Ecma.Ref F R))} (h : Good H c x N e)
    (hx : ∀ o f as, x ≠ .call o f as) (w : W) : Sim Eqv N.new_ (do
      Ecma.within false (!Ecma.parenCall x)
      let g ← Ecma.valueOf H e
      Ecma.construct H g []) w := by
  refine within_sim _ fun hp => h.new_ ?_ w
  cases x <;> first | rfl | (exact absurd rfl (hx _ _ _)) | simpa [Ecma.parenCall, Ecma.parenCall.isCall] using hp

mutual
theorem good : ∀ x : Expr F P C, Good H c x (evalN H c n x) (Ecma.eval H c false n x)
  | .this_ => plain_good H c _ fun w => Sim.refl _ w
  | .newTarget => plain_good H c _ fun w => Sim.refl _ w
  | .null => plain_good H c _ fun w => Sim.refl _ w
  | .bool b => plain_good H c _ fun w => Sim.refl _ w
  | .num a => plain_good H c _ fun w => Sim.refl _ w
  | .big i => by
    simp only [evalN, Ecma.eval]
    refine plain_good H c _ fun w => ?_
    split
    · exact Sim.refl _ _
    · exact Sim.fatal _ _
  | .str s => plain_good H c _ fun w => Sim.refl _ w
  | .template ps => by
    simp only [evalN, Ecma.eval]
    refine plain_good H c _ fun w => ?_
    refine Sim.bindE ?_ fun s w => Sim.refl _ w
    have := goodT ps [] w
    simpa only [List.nil_append, bind_pure'] using this
  | .arr es => by
    simp only [evalN, Ecma.eval]
    exact plain_good H c _ fun w => (goodE es [] w).bindE fun s w => Sim.refl _ w
  | .object ms => by
    simp only [evalN, Ecma.eval]
    refine plain_good H c _ fun w => ?_
    refine (Sim.refl _ _).bindE fun o w => ?_
    exact (goodO o ms w).bindE fun _ w => Sim.refl _ w
  | .func _ f => plain_good H c _ fun w => Sim.refl _ w
  | .id x => id_good H c x
  | .paren x => by
    simp only [evalN, Ecma.eval]
    exact paren_good H c (good x)
  | .member opt x name => by
    simp only [evalN, Ecma.eval]
    exact member_good H c _ opt rfl (good x).val (keyS := pure (.str name)) fun w => Sim.pure rfl
  | .index opt x y => by
    simp only [evalN, Ecma.eval]
    exact member_good H c _ opt rfl (good x).val (index_key_sim H (good y).val)
  | .call opt f as => by
    simp only [evalN, Ecma.eval]
    exact call_good H c opt as (good f) (goodA as []) _
  | .new_ x => by
    have gx := good x
    cases x with
    | call opt f as =>
      simp only [evalN, Ecma.eval]
      refine plain_good H c _ fun w => ?_
      simp only [constructV_eq]
      refine ((good f).val w).bindE fun g w => ?_
      exact (goodA as [] w).bindE fun as w => Sim.refl _ w
    | _ =>
      exact plain_good H c _ fun w => new_sim H c gx (fun _ _ _ h => by cases h) w
  | .unary op x => by
    simp only [evalN, Ecma.eval]
    exact plain_good H c _ fun w => ((good x).val w).bindE fun v w => unOp_sim H op v w
  | .typeof_ x => by
    simp only [evalN, Ecma.eval]
    exact plain_good H c _ fun w => ((good x).typeofArg w).bindE fun v w => typeof_sim H v w
  | .delete_ x => by
    simp only [evalN, Ecma.eval]
    exact plain_good H c _ fun w => ((good x).del w).bindE fun v w => Sim.refl _ w
  | .update pre inc x => by
    simp only [evalN, Ecma.eval]
    exact plain_good H c _ fun w => update_sim H c pre inc (good x).ref w
  | .assign x y => by
    simp only [evalN, Ecma.eval]
    refine plain_good H c _ fun w => ?_
    refine ((good x).ref w).bind fun a b w hab => ?_
    cases b with
    | none => cases a <;> exact hab.1.elim
    | some r =>
      refine (assigned_sim H c x y (good y).val w).bindE fun v w => ?_
      exact (putRef_sim H c v w hab.1).bindE fun _ w => Sim.refl _ w
  | .assignPat p y => by
    simp only [evalN, Ecma.eval]
    exact plain_good H c _ fun w => ((good y).val w).bindE fun v w => Sim.refl _ w
  | .addAssign x y => by
    simp only [evalN, Ecma.eval]
    refine plain_good H c _ fun w => ?_
    refine ((good x).ref w).bind fun a b w hab => ?_
    cases b with
    | none => cases a <;> exact hab.1.elim
    | some r =>
      refine (getRef_sim H c hab).bindE fun u w => ?_
      refine ((good y).val w).bindE fun v w => ?_
      refine (addOp_sim H u v w).bindE fun s w => ?_
      exact (putRef_sim H c s w hab.1).bindE fun _ w => Sim.refl _ w
  | .and x y => by
    simp only [evalN, Ecma.eval]
    refine plain_good H c _ fun w => ?_
    refine ((good x).val w).bindE fun a w => ?_
    rw [toBoolean_eq]
    cases Ecma.toBoolean H a
    · exact Sim.refl _ _
    · exact (good y).val w
  | .or x y => by
    simp only [evalN, Ecma.eval]
    refine plain_good H c _ fun w => ?_
    refine ((good x).val w).bindE fun a w => ?_
    rw [toBoolean_eq]
    cases Ecma.toBoolean H a
    · exact (good y).val w
    · exact Sim.refl _ _
  | .nullish x y => by
    simp only [evalN, Ecma.eval]
    refine plain_good H c _ fun w => ?_
    refine ((good x).val w).bindE fun a w => ?_
    rw [isNullish_eq]
    cases Ecma.Nullish a
    · exact Sim.refl _ _
    · exact (good y).val w
  | .binary op x y => by
    simp only [evalN, Ecma.eval]
    refine plain_good H c _ fun w => ?_
    refine ((good x).val w).bindE fun a w => ?_
    exact ((good y).val w).bindE fun b w => binOp_sim H n op a b w
  | .cond x y z => by
    simp only [evalN, Ecma.eval]
    refine plain_good H c _ fun w => ?_
    refine ((good x).val w).bindE fun a w => ?_
    rw [toBoolean_eq]
    cases Ecma.toBoolean H a
    · exact (good z).val w
    · exact (good y).val w
  | .arith op x y => by
    simp only [evalN, Ecma.eval]
    exact plain_good H c _ fun w => within_sim _ fun h => by cases h
  | .bitNot x => by
    simp only [evalN, Ecma.eval]
    exact plain_good H c _ fun w => within_sim _ fun h => by cases h
  | .comma x y => by
    simp only [evalN, Ecma.eval]
    exact plain_good H c _ fun w => within_sim _ fun h => by cases h
  | .other => by
    have h := plain_good (R := R) H c (Expr.other : Expr F P C) (m := M.fatal) (s := M.fatal) fun w => Sim.refl _ w
    exact h

theorem goodA : ∀ (as : Args F P C) (acc : List (Val F)) (w : W),
    Sim Eqv (evalA H c n as acc) (Ecma.arguments H c false n as acc) w
  | .nil, acc, w => Sim.refl _ w
  | .cons x as, acc, w => by
    simp only [evalA, Ecma.arguments]
    exact ((good x).val w).bindE fun v w => goodA as _ w
  | .spread x as, acc, w => by
    simp only [evalA, Ecma.arguments, drain_eq]
    refine ((good x).val w).bindE fun v w => ?_
    refine (Sim.refl _ _).bindE fun i w => ?_
    exact (Sim.refl _ _).bindE fun acc w => goodA as acc w

theorem goodE : ∀ (es : Elems F P C) (acc : List (Option (Val F))) (w : W),
    Sim Eqv (evalE H c n es acc) (Ecma.elements H c false n es acc) w
  | .nil, acc, w => Sim.refl _ w
  | .hole es, acc, w => by
    simp only [evalE, Ecma.elements]
    exact goodE es _ w
  | .cons x es, acc, w => by
    simp only [evalE, Ecma.elements]
    exact ((good x).val w).bindE fun v w => goodE es _ w
  | .spread x es, acc, w => by
    simp only [evalE, Ecma.elements, drain_eq]
    refine ((good x).val w).bindE fun v w => ?_
    refine (Sim.refl _ _).bindE fun i w => ?_
    exact (Sim.refl _ _).bindE fun acc w => goodE es acc w

theorem goodT : ∀ (ps : Parts F P C) (acc : Str) (w : W),
    Sim Eqv (evalT H c n ps acc) (do pure (acc ++ (← Ecma.template H c false n ps))) w
  | .nil, acc, w => by
    simp only [evalT, Ecma.template, pure_bind', List.append_nil]
    exact Sim.refl _ w
  | .text s ps, acc, w => by
    have := goodT ps (acc ++ s) w
    simp only [evalT, Ecma.template, bind_bind, pure_bind']
    simpa only [List.append_assoc] using this
  | .subst x ps, acc, w => by
    simp only [evalT, Ecma.template, bind_bind, pure_bind']
    refine ((good x).val w).bindE fun v w => ?_
    refine (toStringOp_sim H v w).bindE fun s w => ?_
    have := goodT ps (acc ++ s) w
    simpa only [List.append_assoc] using this

theorem goodO (o : Nat) : ∀ (ms : Members F P C) (w : W),
    Sim Eqv (evalO H c n o ms) (Ecma.members H c false n o ms) w
  | .nil, w => Sim.refl _ w
  | .prop k x ms, w => by
    simp only [evalO, Ecma.members, Ecma.property]
    split
    · simp only [bind_bind]
      exact within_sim _ fun h => by cases h
    · simp only [bind_bind]
      refine (named_sim H c x k (good x).val w).bindE fun v w => ?_
      exact (define_sim H o _ v w).bindE fun _ w => goodO o ms w
  | .computed k x ms, w => by
    simp only [evalO, Ecma.members]
    refine ((good k).val w).bindE fun kv w => ?_
    refine (toPropertyKey_sim H kv w).bindE fun key w => ?_
    refine (named_sim H c x _ (good x).val w).bindE fun v w => ?_
    exact (define_sim H o _ v w).bindE fun _ w => goodO o ms w
  | .method d k f ms, w => by
    simp only [evalO, Ecma.members]
    exact (Sim.refl _ _).bindE fun _ w => goodO o ms w
  | .computedMethod d k f ms, w => by
    simp only [evalO, Ecma.members]
    refine ((good k).val w).bindE fun kv w => ?_
    refine (toPropertyKey_sim H kv w).bindE fun key w => ?_
    exact (Sim.refl _ _).bindE fun _ w => goodO o ms w
  | .shorthand x ms, w => by
    simp only [evalO, Ecma.members, readName_eq, bind_bind]
    refine ask_sim _ ?_
    refine (Sim.refl _ _).bindE fun v w => ?_
    exact (define_sim H o _ v w).bindE fun _ w => goodO o ms w
  | .spread x ms, w => by
    simp only [evalO, Ecma.members]
    refine ((good x).val w).bindE fun v w => ?_
    exact (spreadInto_sim H o v w).bindE fun _ w => goodO o ms w
end

end

end Verif.Expr
