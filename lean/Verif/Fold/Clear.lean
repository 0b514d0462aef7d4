import Verif.Fold.Main
/-!
# A condition on the text alone
-/

namespace Verif.Fold
open Verif.Expr (Expr Args Elems Parts Members BinOp UnOp ArithOp ascii Str Num Val Host M)
open Verif.Eval (Const F64 Lib)

section
variable {P C : Type} {L : Lib}

theorem wrap_kind (mark : Bool) (x : Expr F64 P C) : kind (wrap mark x) = kind x := by cases mark <;> rfl

theorem wrap_anonymous (mark : Bool) (x : Expr F64 P C) : Expr.Ecma.anonymous (wrap mark x) = Expr.Ecma.anonymous x := by
  cases mark <;> rfl

theorem wrap_call (mark : Bool) (x : Expr F64 P C) (h : mark = true ∨ isCall x = false) : isCall (wrap mark x) = false := by
  cases mark
  · rcases h with h | h
    · cases h
    · exact h
  · rfl

theorem wrap_short (mark : Bool) (x : Expr F64 P C) (h : short (wrap mark x) = true) : mark = false ∧ short x = true := by
  cases mark
  · exact ⟨rfl, h⟩
  · cases h

/-- A literal. -/
structure Plain (x : Expr F64 P C) : Prop where
  kind : kind x = .value
  short : short x = false
  call : isCall x = false
  anonymous : Expr.Ecma.anonymous x = none

theorem plain_literal (v : Const) : Plain (literal v : Expr F64 P C) := by cases v <;> exact ⟨rfl, rfl, rfl, rfl⟩

theorem plain_binary {op : BinOp} {x y z : Expr F64 P C} (h : foldBinary L op x y = some z) : Plain z := by
  unfold foldBinary at h
  cases h1 : constVal x with
  | none => rw [h1] at h; cases h
  | some l =>
    cases h2 : constVal y with
    | none => rw [h1, h2] at h; cases h
    | some r =>
      rw [h1, h2] at h
      cases hb : binaryConst L op l r with
      | none => simp [hb] at h
      | some v => simp [hb] at h; subst h; exact plain_literal v

theorem plain_arith {op : ArithOp} {x y z : Expr F64 P C} (h : foldArith L op x y = some z) : Plain z := by
  unfold foldArith at h
  split at h
  · cases h; exact ⟨rfl, rfl, rfl, rfl⟩
  · cases h

theorem wrap_plain (mark : Bool) {x : Expr F64 P C} (h : Plain x) : Plain (wrap mark x) :=
  ⟨by rw [wrap_kind]; exact h.kind, by cases mark; exact h.short; rfl, wrap_call mark x (.inr h.call),
    by rw [wrap_anonymous]; exact h.anonymous⟩

/-- The operators that may become literals, and stay plain values. -/
theorem plain_orKeep {mark : Bool} {o : Option (Expr F64 P C)} {x : Expr F64 P C} (ho : ∀ z, o = some z → Plain z)
    (hx : Plain x) : Plain (orKeep mark o x) := by
  cases o with
  | none => exact wrap_plain mark hx
  | some z => exact ho z rfl

theorem plain_not (mark : Bool) (x : Expr F64 P C) : Plain (foldNot mark x) := by
  unfold foldNot
  split <;> exact wrap_plain mark ⟨rfl, rfl, rfl, rfl⟩

theorem plain_typeof (mark : Bool) (x : Expr F64 P C) : Plain (foldTypeof mark x) := by
  unfold foldTypeof
  split <;> exact wrap_plain mark ⟨rfl, rfl, rfl, rfl⟩

theorem fold_unary_plain (mark : Bool) (op : UnOp) (x : Expr F64 P C) : Plain (fold L mark .value (.unary op x)) := by
  simp only [fold]
  split
  · exact plain_not _ _
  · exact wrap_plain mark ⟨rfl, rfl, rfl, rfl⟩

theorem fold_binary_plain (mark : Bool) (op : BinOp) (x y : Expr F64 P C) : Plain (fold L mark .value (.binary op x y)) := by
  simp only [fold]
  exact plain_orKeep (fun _ h => plain_binary h) ⟨rfl, rfl, rfl, rfl⟩

theorem fold_arith_plain (mark : Bool) (op : ArithOp) (x y : Expr F64 P C) : Plain (fold L mark .value (.arith op x y)) := by
  simp only [fold]
  exact plain_orKeep (fun _ h => plain_arith h) ⟨rfl, rfl, rfl, rfl⟩

theorem fold_typeof_plain (mark : Bool) (x : Expr F64 P C) : Plain (fold L mark .value (.typeof_ x)) := by
  simp only [fold]
  exact plain_typeof _ _

theorem fold_kind (mark : Bool) (x : Expr F64 P C) (h : choice x = false) : kind (fold L mark .value x) = kind x := by
  match x with
  | .paren x => simp only [fold]; exact fold_kind true x h
  | .unary op x => exact (fold_unary_plain mark op x).kind
  | .binary op x y => exact (fold_binary_plain mark op x y).kind
  | .arith op x y => exact (fold_arith_plain mark op x y).kind
  | .typeof_ x => exact (fold_typeof_plain mark x).kind
  | .update true _ _ | .update false _ _
  | .null | .bool _ | .num _ | .str _ | .big _
  | .this_ | .newTarget | .template _ | .arr _ | .object _ | .func _ _ | .id _ | .member _ _ _ | .index _ _ _
  | .call _ _ _ | .new_ _ | .delete_ _ | .assign _ _ | .assignPat _ _
  | .addAssign _ _ | .bitNot _ | .comma _ _ | .other => simp only [fold]; exact wrap_kind mark _
  | .and _ _ | .or _ _ | .nullish _ _ | .cond _ _ _ => cases h

theorem fold_anonymous (mark : Bool) (x : Expr F64 P C) (h : choice x = false) :
    Expr.Ecma.anonymous (fold L mark .value x) = Expr.Ecma.anonymous x := by
  match x with
  | .paren x => simp only [fold]; exact fold_anonymous true x h
  | .unary op x => exact (fold_unary_plain mark op x).anonymous
  | .binary op x y => exact (fold_binary_plain mark op x y).anonymous
  | .arith op x y => exact (fold_arith_plain mark op x y).anonymous
  | .typeof_ x => exact (fold_typeof_plain mark x).anonymous
  | .update true _ _ | .update false _ _
  | .null | .bool _ | .num _ | .str _ | .big _
  | .this_ | .newTarget | .template _ | .arr _ | .object _ | .func _ _ | .id _ | .member _ _ _ | .index _ _ _
  | .call _ _ _ | .new_ _ | .delete_ _ | .assign _ _ | .assignPat _ _
  | .addAssign _ _ | .bitNot _ | .comma _ _ | .other => simp only [fold]; exact wrap_anonymous mark _
  | .and _ _ | .or _ _ | .nullish _ _ | .cond _ _ _ => cases h

theorem fold_call (mark : Bool) (x : Expr F64 P C) (h : choice x = false) (hc : mark = true ∨ isCall x = false) :
    isCall (fold L mark .value x) = false := by
  match x with
  | .paren x => simp only [fold]; exact fold_call true x h (.inl rfl)
  | .unary op x => exact (fold_unary_plain mark op x).call
  | .binary op x y => exact (fold_binary_plain mark op x y).call
  | .arith op x y => exact (fold_arith_plain mark op x y).call
  | .typeof_ x => exact (fold_typeof_plain mark x).call
  | .update true _ _ | .update false _ _
  | .null | .bool _ | .num _ | .str _ | .big _
  | .this_ | .newTarget | .template _ | .arr _ | .object _ | .func _ _ | .id _ | .member _ _ _ | .index _ _ _
  | .new_ _ | .delete_ _ | .assign _ _ | .assignPat _ _
  | .addAssign _ _ | .bitNot _ | .comma _ _ | .other => simp only [fold]; exact wrap_call mark _ (.inr rfl)
  | .call _ _ _ => 
    simp only [fold]
    rcases hc with rfl | hc
    · rfl
    · cases hc
  | .and _ _ | .or _ _ | .nullish _ _ | .cond _ _ _ => cases h

theorem fold_short (mark : Bool) (x : Expr F64 P C) (h : choice x = false) (hc : Clear x)
    (hs : short (fold L mark .value x) = true) : mark = false ∧ short x = true := by
  match x with
  | .paren x =>
    simp only [fold] at hs
    simp only [Clear] at hc
    exact absurd (fold_short true x h hc hs).1 (by simp)
  | .unary op x => rw [(fold_unary_plain mark op x).short] at hs; cases hs
  | .binary op x y => rw [(fold_binary_plain mark op x y).short] at hs; cases hs
  | .arith op x y => rw [(fold_arith_plain mark op x y).short] at hs; cases hs
  | .typeof_ x => rw [(fold_typeof_plain mark x).short] at hs; cases hs
  | .member opt x _ =>
    simp only [fold] at hs
    simp only [Clear] at hc
    obtain ⟨e, hs⟩ := wrap_short _ _ hs
    refine ⟨e, ?_⟩
    simp only [short, Bool.or_eq_true] at hs ⊢
    exact hs.imp_right fun hs => (fold_short false x hc.2 hc.1 hs).2
  | .index opt x _ =>
    simp only [fold] at hs
    simp only [Clear] at hc
    obtain ⟨e, hs⟩ := wrap_short _ _ hs
    refine ⟨e, ?_⟩
    simp only [short, Bool.or_eq_true] at hs ⊢
    exact hs.imp_right fun hs => (fold_short false x hc.2.2 hc.1 hs).2
  | .call opt x _ =>
    simp only [fold] at hs
    simp only [Clear] at hc
    obtain ⟨e, hs⟩ := wrap_short _ _ hs
    refine ⟨e, ?_⟩
    simp only [short, Bool.or_eq_true] at hs ⊢
    exact hs.imp_right fun hs => (fold_short false x hc.2.2 hc.1 hs).2
  | .update true _ _ | .update false _ _
  | .null | .bool _ | .num _ | .str _ | .big _
  | .this_ | .newTarget | .template _ | .arr _ | .object _ | .func _ _ | .id _
  | .new_ _ | .delete_ _ | .assign _ _ | .assignPat _ _
  | .addAssign _ _ | .bitNot _ | .comma _ _ | .other => simp only [fold] at hs; exact absurd (wrap_short _ _ hs).2 (by simp [short])
  | .and _ _ | .or _ _ | .nullish _ _ | .cond _ _ _ => cases h

mutual
/-- The second part is for `new`. -/
theorem clear_safe (x : Expr F64 P C) (h : Clear x) :
    Safe L x ∧ ∀ o f as, x = .call o f as → Safe L f ∧ SafeArgs L as := by
  cases x with
  | this_ | newTarget | null | bool | num | big | str | func | id | other =>
    exact ⟨by simp only [Safe], fun _ _ _ e => by cases e⟩
  | template ps =>
    simp only [Clear] at h
    exact ⟨by simp only [Safe]; exact clear_parts ps h, fun _ _ _ e => by cases e⟩
  | arr es =>
    simp only [Clear] at h
    exact ⟨by simp only [Safe]; exact clear_elems es h, fun _ _ _ e => by cases e⟩
  | object ms =>
    simp only [Clear] at h
    exact ⟨by simp only [Safe]; exact clear_members ms h, fun _ _ _ e => by cases e⟩
  | paren x =>
    simp only [Clear] at h
    exact ⟨by simp only [Safe]; exact (clear_safe x h).1, fun _ _ _ e => by cases e⟩
  | member opt x name =>
    simp only [Clear] at h
    exact ⟨by simp only [Safe]; exact ⟨(clear_safe x h.1).1, fun hs => (fold_short _ x h.2 h.1 hs).2⟩, fun _ _ _ e => by cases e⟩
  | index opt x y =>
    simp only [Clear] at h
    exact ⟨by simp only [Safe]; exact ⟨(clear_safe x h.1).1, (clear_safe y h.2.1).1,
      fun hs => (fold_short _ x h.2.2 h.1 hs).2⟩, fun _ _ _ e => by cases e⟩
  | call opt f as =>
    simp only [Clear] at h
    have hf := (clear_safe f h.1).1
    have ha := clear_args as h.2.1
    exact ⟨by simp only [Safe]; exact ⟨hf, ha, fun hs => (fold_short _ f h.2.2 h.1 hs).2, fun hk => by
      rwa [fold_kind _ f h.2.2] at hk⟩, fun _ _ _ e => by cases e; exact ⟨hf, ha⟩⟩
  | new_ x =>
    simp only [Clear] at h
    have hx := clear_safe x h.1
    refine ⟨?_, fun _ _ _ e => by cases e⟩
    cases hc : isCall x with
    | true =>
      cases x <;> first | (cases hc; done) | skip
      simp only [Safe]
      exact hx.2 _ _ _ rfl
    | false =>
      have h' := fold_call (L := L) false x h.2 (.inr hc)
      cases x <;> first | (cases hc; done) | (simp only [Safe] at hx ⊢; exact ⟨hx.1, h'⟩)
  | unary op x =>
    simp only [Clear] at h
    exact ⟨by simp only [Safe]; exact (clear_safe x h).1, fun _ _ _ e => by cases e⟩
  | typeof_ x =>
    simp only [Clear] at h
    exact ⟨by simp only [Safe]; exact ⟨(clear_safe x h.1).1, fun hk => by rwa [fold_kind _ x h.2] at hk⟩, fun _ _ _ e => by cases e⟩
  | delete_ x =>
    simp only [Clear] at h
    exact ⟨by simp only [Safe]; exact ⟨(clear_safe x h.1).1, fold_kind _ x h.2⟩, fun _ _ _ e => by cases e⟩
  | update pre inc x =>
    cases pre with
    | true =>
      simp only [Clear] at h
      exact ⟨by simp only [Safe]; exact ⟨(clear_safe x h.1).1, h.2⟩, fun _ _ _ e => by cases e⟩
    | false => exact ⟨by simp only [Safe], fun _ _ _ e => by cases e⟩
  | assign x y =>
    simp only [Clear] at h
    exact ⟨by simp only [Safe]; exact ⟨(clear_safe x h.1).1, (clear_safe y h.2.1).1, h.2.2.1,
      fun hn => fold_anonymous _ y (h.2.2.2 hn)⟩, fun _ _ _ e => by cases e⟩
  | assignPat p y =>
    simp only [Clear] at h
    exact ⟨by simp only [Safe]; exact (clear_safe y h).1, fun _ _ _ e => by cases e⟩
  | addAssign x y =>
    simp only [Clear] at h
    exact ⟨by simp only [Safe]; exact ⟨(clear_safe x h.1).1, (clear_safe y h.2.1).1, h.2.2⟩, fun _ _ _ e => by cases e⟩
  | and x y | or x y | nullish x y | binary op x y | comma x y =>
    simp only [Clear] at h
    exact ⟨by simp only [Safe]; exact ⟨(clear_safe x h.1).1, (clear_safe y h.2).1⟩, fun _ _ _ e => by cases e⟩
  | arith op x y =>
    simp only [Clear] at h
    exact ⟨by simp only [Safe]; exact ⟨(clear_safe x h.1).1, (clear_safe y h.2.1).1, fun e => absurd e h.2.2⟩, fun _ _ _ e => by cases e⟩
  | cond x y z =>
    simp only [Clear] at h
    exact ⟨by simp only [Safe]; exact ⟨(clear_safe x h.1).1, (clear_safe y h.2.1).1, (clear_safe z h.2.2).1⟩, fun _ _ _ e => by cases e⟩
  | bitNot x =>
    simp only [Clear] at h
    exact ⟨by simp only [Safe]; exact (clear_safe x h).1, fun _ _ _ e => by cases e⟩

theorem clear_args (as : Args F64 P C) (h : ClearArgs as) : SafeArgs L as := by
  cases as with
  | nil => simp only [SafeArgs]
  | cons x as | spread x as =>
    simp only [ClearArgs] at h
    simp only [SafeArgs]
    exact ⟨(clear_safe x h.1).1, clear_args as h.2⟩

theorem clear_elems (es : Elems F64 P C) (h : ClearElems es) : SafeElems L es := by
  cases es with
  | nil => simp only [SafeElems]
  | hole es =>
    simp only [ClearElems] at h
    simp only [SafeElems]
    exact clear_elems es h
  | cons x es | spread x es =>
    simp only [ClearElems] at h
    simp only [SafeElems]
    exact ⟨(clear_safe x h.1).1, clear_elems es h.2⟩

theorem clear_parts (ps : Parts F64 P C) (h : ClearParts ps) : SafeParts L ps := by
  cases ps with
  | nil => simp only [SafeParts]
  | text s ps =>
    simp only [ClearParts] at h
    simp only [SafeParts]
    exact clear_parts ps h
  | subst x ps =>
    simp only [ClearParts] at h
    simp only [SafeParts]
    exact ⟨(clear_safe x h.1).1, clear_parts ps h.2⟩

theorem clear_members (ms : Members F64 P C) (h : ClearMembers ms) : SafeMembers L ms := by
  cases ms with
  | nil => simp only [SafeMembers]
  | prop k x ms =>
    simp only [ClearMembers] at h
    simp only [SafeMembers]
    exact ⟨(clear_safe x h.1).1, clear_members ms h.2.1, fun _ => fold_anonymous _ x h.2.2⟩
  | computed k x ms =>
    simp only [ClearMembers] at h
    simp only [SafeMembers]
    exact ⟨(clear_safe k h.1).1, (clear_safe x h.2.1).1, clear_members ms h.2.2.1, fold_anonymous _ x h.2.2.2⟩
  | method d k f ms =>
    simp only [ClearMembers] at h
    simp only [SafeMembers]
    exact clear_members ms h
  | shorthand y ms =>
    simp only [ClearMembers] at h
    simp only [SafeMembers]
    exact clear_members ms h
  | computedMethod d k f ms =>
    simp only [ClearMembers] at h
    simp only [SafeMembers]
    exact ⟨(clear_safe k h.1).1, clear_members ms h.2⟩
  | spread x ms =>
    simp only [ClearMembers] at h
    simp only [SafeMembers]
    exact ⟨(clear_safe x h.1).1, clear_members ms h.2⟩
end

end

end Verif.Fold
