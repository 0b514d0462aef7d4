import Verif.Fold.Text
/-!
# Operators on constants
-/

namespace Verif.Fold
open Verif.Expr (Expr Args Elems Parts Members BinOp UnOp ArithOp ascii Str Num Val Host M)
open Verif.Expr (bind_bind pure_bind' bind_pure')
open Verif.Eval (Const F64 Lib)

set_option exponentiation.threshold 4000

/-- The value of a constant. -/
def val : Const → Val F64
  | .undef => .undef
  | .null => .null
  | .bool b => .bool b
  | .num a => .num a
  | .str s => .str s
  | .bigint i => .big i

section
variable {L : Lib} {N : Num F64} (S : Standard L N)
include S

theorem Standard.ofStr_eq (s : Str) : N.ofStr s = Eval.coerceStr s := (Eval.coerceStr_iff.1 (S.ofStr s)).symm

theorem Standard.toStr_eq (hL : Shortest L) (a : F64) : N.toStr a = numberString L a :=
  numToString_unique (S.toStr a) (numberString_spec hL a)

theorem rem_eq (a b : F64) : N.rem a b = a.rem b := by
  rw [Eval.mod_iff.1 (S.rem a b)]
  unfold Eval.jsMod
  split
  · rename_i h
    cases b with
    | nan => simp [F64.eq, F64.cmp] at h
    | inf s => cases s <;> simp [F64.eq, F64.cmp] at h
    | fin s m =>
      rw [Eval.eq_zero_iff] at h
      subst h
      cases a <;> rfl
  · cases a with
    | nan => rfl
    | inf s => cases b <;> rfl
    | fin s m => rfl

theorem arith_eq (op : ArithOp) (a b : F64) (h : op = .pow → ¬ Eval.ExpNan a b) : N.arith op a b = arithConst L op a b := by
  have key : ∀ {o : Eval.BinOp} {z : F64}, Eval.Bitwise o → Eval.NumOp o a b z →
      Eval.evalBin L o (.num a) (.num b) = some (some (.num z)) :=
    fun ho hz => (Eval.C34_bitwise L _ _ _ _ ho).2 (.num .num .num hz)
  have fin : ∀ {o : Eval.BinOp} {z : F64} {f : BitVec 32 → BitVec 32 → F64},
      Eval.evalBin L o (.num a) (.num b) = Eval.bitArm f (.num a) (.num b) →
      Eval.evalBin L o (.num a) (.num b) = some (some (.num z)) → z = f (toUint32 a) (toUint32 b) := by
    intro o z f e h
    rw [e] at h
    simp only [Eval.bitArm, Eval.coerceU32_eq, Eval.coerceNum, Option.map_some, Option.some.injEq, Const.num.injEq] at h
    exact h.symm
  cases op with
  | pow => exact S.pow a b (h rfl)
  | bitAnd => exact fin rfl (key (by simp [Eval.Bitwise]) (S.bitAnd a b))
  | bitOr => exact fin rfl (key (by simp [Eval.Bitwise]) (S.bitOr a b))
  | bitXor => exact fin rfl (key (by simp [Eval.Bitwise]) (S.bitXor a b))
  | shl => exact fin rfl (key (by simp [Eval.Bitwise]) (S.shl a b))
  | shr => exact fin rfl (key (by simp [Eval.Bitwise]) (S.shr a b))
  | ushr => exact fin rfl (key (by simp [Eval.Bitwise]) (S.ushr a b))

end

section
variable {E R I P C W : Type} {H : Host F64 E R I P C W} {L : Lib} (S : Standard L H.num)

theorem nullish_val (v : Const) : Expr.Ecma.Nullish (val v) = isNullish v := by cases v <;> rfl

include S

theorem truthy_val (v : Const) : Expr.Ecma.toBoolean H (val v) = truthy v := by
  cases v with
  | num a =>
    simp only [val, Expr.Ecma.toBoolean, truthy, S.cmp, S.zero, F64.eq]
    cases a with
    | nan => rfl
    | inf s => cases s <;> rfl
    | fin s m =>
      simp only [F64.cmp, F64.isNan]
      rcases compare (F64.units s m) (F64.units false 0) <;> rfl
  | _ => rfl

omit S in
theorem typeName_val (v : Const) : Expr.Ecma.typeName H (val v) = pure (typeofText v) := by cases v <;> rfl

theorem strictEq_val (l r : Const) : Expr.Ecma.strictlyEqual H (val l) (val r) = strictEq l r := by
  cases l <;> cases r <;> first | rfl | simp [val, Expr.Ecma.strictlyEqual, strictEq, S.cmp, F64.eq]

theorem looseEq_val {l r : Const} {b : Bool} (h : looseEq l r = some b) :
    Expr.Ecma.looselyEqual H true (val l) (val r) = (pure b : M F64 W Bool) := by
  rcases l with _ | ⟨_ | _⟩ | _ | _ | _ | _ <;> rcases r with _ | ⟨_ | _⟩ | _ | _ | _ | _ <;>
    simp [looseEq, looseBase, ofBool, strictEq] at h <;> subst h <;>
    simp [val, Expr.Ecma.looselyEqual, Expr.Ecma.unBool, Expr.Ecma.within, Expr.Ecma.looseEqualP,
      Expr.Ecma.strictlyEqual, S.cmp, S.one, S.zero, S.ofStr_eq, F64.eq] <;> rfl

theorem numberOf_val {v : Const} {a : F64} (h : toNumber v = some a) :
    Expr.Ecma.numberOf H (val v) = (pure a : M F64 W F64) := by
  cases v with
  | bool b => cases b <;> simp [toNumber] at h <;> subst h <;> simp [val, Expr.Ecma.numberOf, S.one, S.zero]
  | _ => simp [toNumber] at h <;> subst h <;> simp [val, Expr.Ecma.numberOf, S.nan, S.zero, S.ofStr_eq]

omit S in
theorem prim_val (v : Const) (p : Expr.Ecma.Prefer) : Expr.Ecma.toPrimitive H (val v) p = (pure (val v) : M F64 W (Val F64)) := by
  cases v <;> rfl

theorem numericOf_val {v : Const} {a : F64} (h : toNumber v = some a) :
    Expr.Ecma.numericOf H (val v) = (pure (.inl a) : M F64 W (F64 ⊕ Int)) := by
  have := numberOf_val (W := W) S h
  cases v <;> first | (cases h; done) | (simp only [val, Expr.Ecma.numericOf] at this ⊢; rw [this]; rfl)

theorem stringOf_val (hL : Shortest L) (v : Const) : Expr.Ecma.stringOf H (val v) = (pure (toString L v) : M F64 W Str) := by
  cases v with
  | bool b => cases b <;> rfl
  | num a => simp [val, Expr.Ecma.stringOf, toString, S.toStr_eq hL]
  | bigint i => simp [val, Expr.Ecma.stringOf, toString, S.bigToStr]
  | _ => rfl

omit S in
theorem strCmp_lt (s t : Str) : (strCmp s t).isLT = Expr.Ecma.strLess s t := by
  induction s generalizing t with
  | nil => cases t <;> rfl
  | cons a s ih =>
    cases t with
    | nil => rfl
    | cons b t =>
      simp only [strCmp, Expr.Ecma.strLess]
      rcases Nat.lt_trichotomy a b with h | h | h
      · simp [Nat.compare_eq_lt.2 h, h]
      · subst h; simp [ih]
      · simp [Nat.compare_eq_gt.2 h, Nat.not_lt.2 (Nat.le_of_lt h), Nat.ne_of_gt h]

omit S in
theorem strCmp_swap (s t : Str) : strCmp t s = (strCmp s t).swap := by
  induction s generalizing t with
  | nil => cases t <;> rfl
  | cons a s ih =>
    cases t with
    | nil => rfl
    | cons b t =>
      simp only [strCmp]
      rcases Nat.lt_trichotomy a b with h | h | h
      · simp [Nat.compare_eq_lt.2 h, Nat.compare_eq_gt.2 h]
      · subst h; simp [ih t]
      · simp [Nat.compare_eq_gt.2 h, Nat.compare_eq_lt.2 h]

omit S in
theorem strCmp_gt (s t : Str) : (strCmp s t).isGT = Expr.Ecma.strLess t s := by
  rw [← strCmp_lt, strCmp_swap s t]; cases strCmp s t <;> rfl

/-- IsLessThan of two constants, not both strings. -/
theorem less_num {l r : Const} {a b : F64} (hl : toNumber l = some a) (hr : toNumber r = some b)
    (hs : ¬ ((∃ s, l = .str s) ∧ ∃ t, r = .str t)) :
    Expr.Ecma.lessPrim H (val l) (val r) = (pure ((a.cmp b).map (· == .lt)) : M F64 W (Option Bool)) := by
  have e : Expr.Ecma.lessPrim H (val l) (val r) = (do
      match ← Expr.Ecma.numericOf H (val l), ← Expr.Ecma.numericOf H (val r) with
      | .inl a, .inl b => pure ((H.num.cmp a b).map (· == .lt))
      | .inr i, .inr j => pure (some (decide (i < j)))
      | .inr i, .inl b => pure ((H.num.cmpBig i b).map (· == .lt))
      | .inl a, .inr j => pure ((H.num.cmpBig j a).map (· == .gt)) : M F64 W (Option Bool)) := by
    rcases l with _ | ⟨_ | _⟩ | _ | _ | _ | _ <;> rcases r with _ | ⟨_ | _⟩ | _ | _ | _ | _ <;>
      first | (cases hl; done) | (cases hr; done) | (exact absurd ⟨⟨_, rfl⟩, ⟨_, rfl⟩⟩ hs) | rfl
  rw [e, numericOf_val S hl, numericOf_val S hr]
  simp only [pure_bind', S.cmp]

theorem compare_val {op : BinOp} {l r : Const} {b : Bool} (ho : op = .lt ∨ op = .le ∨ op = .gt ∨ op = .ge)
    (h : compareConst op l r = some b) :
    Expr.Ecma.compare H true op (val l) (val r) = (pure (.bool b) : M F64 W (Val F64)) := by
  have hc : Expr.Ecma.comparands H true (val l) (val r) = (pure (val l, val r) : M F64 W _) := by
    unfold Expr.Ecma.comparands
    rw [prim_val]
    simp only [pure_bind']
    rw [prim_val]
    rfl
  unfold Expr.Ecma.compare
  rw [hc]
  simp only [pure_bind']
  by_cases hs : (∃ s, l = .str s) ∧ ∃ t, r = .str t
  · obtain ⟨⟨s, rfl⟩, t, rfl⟩ := hs
    simp only [compareConst, Option.some.injEq] at h
    subst h
    have e1 := strCmp_lt s t
    have e2 := strCmp_gt s t
    rcases ho with rfl | rfl | rfl | rfl <;> simp only [val, Expr.Ecma.lessPrim, pure_bind'] <;>
      simp only [← e1, ← e2] <;> cases strCmp s t <;> rfl
  · obtain ⟨x, y, hx, hy, hb⟩ : ∃ x y, toNumber l = some x ∧ toNumber r = some y ∧
        b = compareNum op (x.cmp y) := by
      cases l <;> cases r <;> first
        | (exact absurd ⟨⟨_, rfl⟩, ⟨_, rfl⟩⟩ hs)
        | (simp only [compareConst] at h; cases h; done)
        | (simp only [compareConst, toNumber, bind, Option.bind, Option.some.injEq] at h
           exact ⟨_, _, rfl, rfl, h.symm⟩)
    have e1 := less_num (W := W) S hx hy hs
    have e2 := less_num (W := W) S hy hx (fun ⟨a, b⟩ => hs ⟨b, a⟩)
    rw [Eval.cmp_swap x y] at e2
    rcases ho with rfl | rfl | rfl | rfl <;> simp only [e1, e2, pure_bind'] <;> subst hb <;> simp only [compareNum] <;>
      rcases x.cmp y with _ | ⟨_ | _ | _⟩ <;> rfl

/-- An operator on two constants. -/
theorem binary_val (hL : Shortest L) (n : Nat) {op : BinOp} {l r v : Const} (h : binaryConst L op l r = some v) :
    Expr.Ecma.binary H true n op (val l) (val r) = (pure (val v) : M F64 W (Val F64)) := by
  have arith : ∀ (o : BinOp) (a b : F64), Expr.Ecma.arith H true o (.num a) (.num b) =
      (pure (.num (Expr.Ecma.numArith H o a b)) : M F64 W (Val F64)) := by
    intro o a b; rfl
  cases op with
  | strictEq =>
    simp only [binaryConst, Option.some.injEq] at h; subst h
    simp only [Expr.Ecma.binary, strictEq_val S]; rfl
  | strictNe =>
    simp only [binaryConst, Option.some.injEq] at h; subst h
    simp only [Expr.Ecma.binary, strictEq_val S]; rfl
  | eq =>
    simp only [binaryConst, Option.map_eq_some_iff] at h
    obtain ⟨b, hb, rfl⟩ := h
    simp only [Expr.Ecma.binary, looseEq_val S hb]; rfl
  | ne =>
    simp only [binaryConst, Option.map_eq_some_iff] at h
    obtain ⟨b, hb, rfl⟩ := h
    simp only [Expr.Ecma.binary, looseEq_val S hb]; rfl
  | in_ => cases h
  | instanceof => cases h
  | add =>
    have str : ∀ l r : Const, ((∃ s, l = .str s) ∨ ∃ s, r = .str s) → Expr.Ecma.add H true (val l) (val r) =
        (pure (.str (toString L l ++ toString L r)) : M F64 W (Val F64)) := by
      intro l r hs
      have h1 := stringOf_val (W := W) S hL l
      have h2 := stringOf_val (W := W) S hL r
      have p1 : Expr.Ecma.toString H (val l) = (pure (toString L l) : M F64 W Str) := by
        unfold Expr.Ecma.toString; rw [prim_val, pure_bind', h1]
      have p2 : Expr.Ecma.toString H (val r) = (pure (toString L r) : M F64 W Str) := by
        unfold Expr.Ecma.toString; rw [prim_val, pure_bind', h2]
      have e : Expr.Ecma.add H true (val l) (val r) = (do
          let s ← Expr.Ecma.toString H (val l)
          let t ← Expr.Ecma.toString H (val r)
          pure (.str (s ++ t)) : M F64 W (Val F64)) := by
        unfold Expr.Ecma.add
        rw [prim_val, prim_val, pure_bind', pure_bind']
        rcases hs with ⟨s, rfl⟩ | ⟨s, rfl⟩
        · rfl
        · cases l <;> rfl
      rw [e, p1, p2]; rfl
    cases l <;> cases r <;> simp only [binaryConst, Option.some.injEq] at h <;> first
      | (cases h; done)
      | (subst h; simp only [Expr.Ecma.binary, str _ _ (.inl ⟨_, rfl⟩)]; rfl)
      | (subst h; simp only [Expr.Ecma.binary, str _ _ (.inr ⟨_, rfl⟩)]; rfl)
      | (subst h
         show Expr.Ecma.arith H true .add (.num _) (.num _) = _
         rw [arith]; simp [Expr.Ecma.numArith, S.add, val])
  | mul =>
    cases l <;> cases r <;> simp only [binaryConst, Option.some.injEq] at h <;> first
      | (cases h; done)
      | (subst h; simp only [Expr.Ecma.binary, val]; rw [arith]; simp [Expr.Ecma.numArith, S.mul])
  | sub =>
    cases l <;> cases r <;> simp only [binaryConst, Option.some.injEq] at h <;> first
      | (cases h; done)
      | (subst h; simp only [Expr.Ecma.binary, val]; rw [arith]; simp [Expr.Ecma.numArith, S.sub])
  | div =>
    cases l <;> cases r <;> simp only [binaryConst, Option.some.injEq] at h <;> first
      | (cases h; done)
      | (subst h; simp only [Expr.Ecma.binary, val]; rw [arith]; simp [Expr.Ecma.numArith, S.div])
  | rem =>
    cases l <;> cases r <;> simp only [binaryConst, Option.some.injEq] at h <;> first
      | (cases h; done)
      | (subst h; simp only [Expr.Ecma.binary, val]; rw [arith]; simp [Expr.Ecma.numArith, rem_eq S])
  | lt =>
    simp only [binaryConst, Option.map_eq_some_iff] at h
    obtain ⟨b, hb, rfl⟩ := h
    exact compare_val S (by simp) hb
  | le =>
    simp only [binaryConst, Option.map_eq_some_iff] at h
    obtain ⟨b, hb, rfl⟩ := h
    exact compare_val S (by simp) hb
  | gt =>
    simp only [binaryConst, Option.map_eq_some_iff] at h
    obtain ⟨b, hb, rfl⟩ := h
    exact compare_val S (by simp) hb
  | ge =>
    simp only [binaryConst, Option.map_eq_some_iff] at h
    obtain ⟨b, hb, rfl⟩ := h
    exact compare_val S (by simp) hb

/-- The same for `**` and the operators on 32-bit integers. -/
theorem arith_val (op : ArithOp) (a b : F64) (h : op = .pow → ¬ Eval.ExpNan a b) :
    Expr.Ecma.arithOp H op (.num a) (.num b) = (pure (.num (arithConst L op a b)) : M F64 W (Val F64)) := by
  rw [← arith_eq S op a b h]; rfl

end

end Verif.Fold
