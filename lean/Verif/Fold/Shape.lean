import Verif.Fold.Const
/-!
# What an expression evaluates to: a value or a reference, or the early end of an optional chain
-/

namespace Verif.Fold
open Verif.Expr (Expr Args Elems Parts Members BinOp UnOp ArithOp ascii Str Num Val Host M)
open Verif.Expr (bind_bind pure_bind' bind_pure' bind_apply)
open Verif.Expr.Ecma (Ref eval value valueOf getValue isValue thisOf typeofArg)
open Verif.Exec (Out)
open Verif.Eval (Const F64 Lib)

section
variable {W A B : Type}

/-- Every result of a step has a property. -/
def Gives (Q : A → Prop) (m : M F64 W A) : Prop := ∀ w a w', m w = some (.ok a, w') → Q a

theorem Gives.pure {Q : A → Prop} {a : A} (h : Q a) : Gives Q (Pure.pure a : M F64 W A) := by
  intro w b w' e
  cases e
  exact h

theorem Gives.bind {Q' : A → Prop} {Q : B → Prop} {m : M F64 W A} {f : A → M F64 W B} (h : Gives Q' m)
    (hf : ∀ a, Q' a → Gives Q (f a)) : Gives Q (m >>= f) := by
  intro w b w' e
  rw [bind_apply] at e
  unfold M.bind at e
  rcases hm : m w with _ | ⟨o, v⟩
  · rw [hm] at e; cases e
  · rw [hm] at e
    cases o with
    | ok a => exact hf a (h w a v hm) v b w' e
    | throw x => cases e
    | fatal => cases e

theorem Gives.any {Q : B → Prop} {m : M F64 W A} {f : A → M F64 W B} (hf : ∀ a, Gives Q (f a)) : Gives Q (m >>= f) :=
  Gives.bind (Q' := fun _ => True) (fun _ _ _ _ => trivial) fun a _ => hf a

/-- Two continuations that agree on the results. -/
theorem bind_gives {Q : A → Prop} {m : M F64 W A} (h : Gives Q m) {f g : A → M F64 W B} (hf : ∀ a, Q a → f a = g a) :
    (m >>= f) = (m >>= g) := by
  funext w
  simp only [bind_apply, M.bind]
  rcases hm : m w with _ | ⟨o, v⟩
  · rfl
  · cases o with
    | ok a => simp only [hf a (h w a v hm)]
    | throw x => rfl
    | fatal => rfl
end

section
variable {E R I P C W : Type} [DecidableEq R] (H : Host F64 E R I P C W) (c : Expr.Ctx F64 E) (n : Nat)

omit [DecidableEq R] in
theorem value_isValue (m : M F64 W (Val F64)) : valueOf H (isValue (R := R) m) = m := by
  unfold valueOf isValue
  rw [bind_bind]
  exact bind_pure' m

omit [DecidableEq R] in
theorem gives_isValue (m : M F64 W (Val F64)) : Gives (fun o : Option (Ref F64 R) => ∃ v, o = some (.value v)) (isValue m) :=
  Gives.any fun _ => Gives.pure ⟨_, rfl⟩

/-- The results an expression of a kind can have. -/
def OfKind (k : Kind) (o : Option (Ref F64 R)) : Prop :=
  match k, o with
  | .value, some (.value _) => True
  | .value, none => True
  | .name, some (.name _ _) => True
  | .prop, some (.prop _ _) => True
  | .prop, none => True
  | .prop, some (.value _) => True
  | _, _ => False

omit [DecidableEq R] in
theorem gives_value (m : M F64 W (Val F64)) : Gives (OfKind (R := R) .value) (isValue m) :=
  Gives.any fun _ => Gives.pure trivial

theorem eval_kind (x : Expr F64 P C) : Gives (OfKind (kind x)) (eval H c true n x) := by
  match x with
  | .id x => exact Gives.any fun _ => Gives.pure trivial
  | .paren x =>
    simp only [eval, kind]
    refine Gives.bind (eval_kind x) fun o ho => ?_
    cases o with
    | none =>
      refine Gives.pure ?_
      revert ho
      cases kind x <;> exact fun h => h
    | some r => exact Gives.pure ho
  | .member opt x name =>
    simp only [eval, kind]
    refine Gives.any fun o => ?_
    cases o with
    | none => exact Gives.pure trivial
    | some r =>
      refine Gives.any fun b => ?_
      split
      · exact Gives.pure trivial
      · exact Gives.pure trivial
  | .index opt x y =>
    simp only [eval, kind]
    refine Gives.any fun o => ?_
    cases o with
    | none => exact Gives.pure trivial
    | some r =>
      refine Gives.any fun b => ?_
      split
      · exact Gives.pure trivial
      · exact Gives.any fun _ => Gives.pure trivial
  | .call opt f as =>
    simp only [eval, kind]
    refine Gives.any fun _ => Gives.any fun o => ?_
    cases o with
    | none => exact Gives.any fun _ => Gives.pure trivial
    | some r =>
      refine Gives.any fun b => ?_
      split
      · exact Gives.pure trivial
      · exact Gives.any fun _ => gives_value _
  | .other => intro w o w' h; simp only [eval] at h; cases h
  | .new_ x => cases x <;> (simp only [eval, kind]; exact gives_value _)
  | .this_ | .newTarget | .null | .bool _ | .num _ | .big _ | .str _ | .template _ | .arr _ | .object _ | .func _ _
  | .unary _ _ | .typeof_ _ | .delete_ _ | .update _ _ _ | .assign _ _ | .assignPat _ _ | .addAssign _ _ | .and _ _
  | .or _ _ | .nullish _ _ | .binary _ _ _ | .cond _ _ _ | .arith _ _ _ | .bitNot _ | .comma _ _ =>
    simp only [eval, kind]; exact gives_value _

omit [DecidableEq R] in
theorem gives_some (m : M F64 W (Val F64)) : Gives (fun o : Option (Ref F64 R) => o ≠ none) (isValue m) :=
  Gives.any fun _ => Gives.pure (by simp)

theorem eval_short (x : Expr F64 P C) (h : short x = false) : Gives (· ≠ none) (eval H c true n x) := by
  match x with
  | .id x => exact Gives.any fun _ => Gives.pure (by simp)
  | .paren x =>
    simp only [eval]
    refine Gives.any fun o => ?_
    cases o <;> exact Gives.pure (by simp)
  | .member opt x name =>
    simp only [short, Bool.or_eq_false_iff] at h
    obtain ⟨rfl, h⟩ := h
    simp only [eval]
    refine Gives.bind (eval_short x h) fun o ho => ?_
    cases o with
    | none => exact absurd rfl ho
    | some r => exact Gives.any fun b => Gives.pure (by simp)
  | .index opt x y =>
    simp only [short, Bool.or_eq_false_iff] at h
    obtain ⟨rfl, h⟩ := h
    simp only [eval]
    refine Gives.bind (eval_short x h) fun o ho => ?_
    cases o with
    | none => exact absurd rfl ho
    | some r => exact Gives.any fun b => Gives.any fun _ => Gives.pure (by simp)
  | .call opt f as =>
    simp only [short, Bool.or_eq_false_iff] at h
    obtain ⟨rfl, h⟩ := h
    simp only [eval]
    refine Gives.any fun _ => Gives.bind (eval_short f h) fun o ho => ?_
    cases o with
    | none => exact absurd rfl ho
    | some r => exact Gives.any fun b => Gives.any fun _ => gives_some _
  | .other => intro w o w' h; simp only [eval] at h; cases h
  | .new_ x => cases x <;> (simp only [eval]; exact gives_some _)
  | .this_ | .newTarget | .null | .bool _ | .num _ | .big _ | .str _ | .template _ | .arr _ | .object _ | .func _ _
  | .unary _ _ | .typeof_ _ | .delete_ _ | .update _ _ _ | .assign _ _ | .assignPat _ _ | .addAssign _ _ | .and _ _
  | .or _ _ | .nullish _ _ | .binary _ _ _ | .cond _ _ _ | .arith _ _ _ | .bitNot _ | .comma _ _ =>
    simp only [eval]; exact gives_some _

/-! ## The uses of an operand -/

/-- The base of a property: nothing if the chain has ended. -/
def chainOf (m : M F64 W (Option (Ref F64 R))) : M F64 W (Option (Val F64)) := do
  match ← m with
  | none => pure none
  | some r => do pure (some (← getValue H r))

/-- A function and its `this`. -/
def calleeOf (m : M F64 W (Option (Ref F64 R))) : M F64 W (Option (Val F64 × Val F64)) := do
  match ← m with
  | none => pure none
  | some r => do pure (some (← getValue H r, thisOf r))

omit [DecidableEq R] in
theorem chain_value {m : M F64 W (Option (Ref F64 R))} (h : Gives (· ≠ none) m) :
    chainOf H m = (do pure (some (← valueOf H m))) := by
  unfold chainOf valueOf
  rw [bind_bind]
  refine bind_gives h fun o ho => ?_
  cases o with
  | none => exact absurd rfl ho
  | some r => rfl

omit [DecidableEq R] in
theorem callee_value {m : M F64 W (Option (Ref F64 R))} (h : Gives (· ≠ none) m) {k : Kind} (hk : k ≠ .prop)
    (h' : Gives (OfKind k) m) : calleeOf H m = (do pure (some (← valueOf H m, .undef))) := by
  unfold calleeOf valueOf
  rw [bind_bind]
  refine bind_gives (Q := fun o => o ≠ none ∧ OfKind k o) (fun w a w' e => ⟨h w a w' e, h' w a w' e⟩) fun o ho => ?_
  cases o with
  | none => exact absurd rfl ho.1
  | some r =>
    cases r with
    | value v => rfl
    | name r x => rfl
    | prop b y => cases k <;> first | exact absurd rfl hk | exact ho.2.elim

omit [DecidableEq R] in
theorem typeof_value {m : M F64 W (Option (Ref F64 R))} {k : Kind} (hk : k ≠ .name) (h : Gives (OfKind k) m) :
    typeofArg H m = valueOf H m := by
  unfold typeofArg valueOf
  refine bind_gives h fun o ho => ?_
  cases o with
  | none => rfl
  | some r =>
    cases r with
    | value v => rfl
    | name r x => cases k <;> first | exact absurd rfl hk | exact ho.elim
    | prop b y => rfl

omit [DecidableEq R] in
theorem delete_value {m : M F64 W (Option (Ref F64 R))} (h : Gives (OfKind .value) m) :
    Expr.Ecma.delete H c true m = (do let _ ← valueOf H m; pure true) := by
  unfold Expr.Ecma.delete valueOf
  rw [bind_bind]
  refine bind_gives h fun o ho => ?_
  cases o with
  | none => rfl
  | some r =>
    cases r with
    | value v => rfl
    | name r x => exact ho.elim
    | prop b y => exact ho.elim

end

end Verif.Fold
