import Verif.Fold.Clear
import Verif.Expr.Toy
/-!
# Doubles for the examples
-/

namespace Verif.Fold.Toy
open Verif.Expr (Expr Args Elems Parts Members BinOp UnOp ArithOp ascii Str Num Val Host M)
open Verif.Eval (Const F64 Lib)
open Verif.Exec (Out)

set_option exponentiation.threshold 4000

theorem cmp_zero (a : F64) : a.cmp (.fin false 0) = none ↔ a.cmp a = none := by
  cases a with
  | nan => simp [F64.cmp]
  | inf s => cases s <;> simp [F64.cmp]
  | fin s m => simp [F64.cmp]

/-- `**` of ECMA-262. -/
def pow (L : Lib) (a b : F64) : F64 :=
  match b with
  | .nan => .nan
  | .inf _ => if a = Eval.one ∨ a = Eval.one.neg then .nan else L.pow a b
  | _ => L.pow a b

/-- Doubles. -/
def num (L : Lib) : Num F64 where
  nan := .nan
  zero := .fin false 0
  one := Eval.one
  cmp := F64.cmp
  cmp_swap := Eval.cmp_swap
  cmp_zero := cmp_zero
  add := F64.add
  sub := F64.sub
  mul := F64.mul
  div := F64.div
  rem := F64.rem
  neg := F64.neg
  sub_eq _ _ := rfl
  ofStr := Eval.coerceStr
  toStr := numberString L
  cmpBig _ _ := none
  bigOfStr _ := none
  bigToStr := Eval.intText
  arith op a b := if op = .pow then pow L a b else arithConst L op a b
  bitNot a := a
  bigArith _ _ _ := none

theorem rem_spec (a b : F64) : Eval.Remainder a b (a.rem b) := by
  rw [Eval.mod_iff]
  unfold Eval.jsMod
  split
  · rename_i h
    cases b with
    | nan => simp [F64.eq, F64.cmp] at h
    | inf s => cases s <;> simp [F64.eq, F64.cmp] at h
    | fin s m =>
      rw [Eval.eq_zero_iff] at h
      subst h
      cases a <;> rfl
  · cases a with
    | nan => rfl
    | inf s => cases b <;> rfl
    | fin s m => rfl

theorem bit_spec (L : Lib) (op : Eval.BinOp) (hop : Eval.Bitwise op) {f : BitVec 32 → BitVec 32 → F64}
    (e : ∀ a b, Eval.evalBin L op (.num a) (.num b) = Eval.bitArm f (.num a) (.num b)) (a b : F64) :
    Eval.NumOp op a b (f (toUint32 a) (toUint32 b)) := by
  have h : Eval.evalBin L op (.num a) (.num b) = some (some (.num (f (toUint32 a) (toUint32 b)))) := by
    rw [e]
    simp only [Eval.bitArm, Eval.coerceU32_eq, Eval.coerceNum, Option.map_some]
    rfl
  have := (Eval.C34_bitwise L _ _ _ _ hop).1 h
  revert h
  generalize f (toUint32 a) (toUint32 b) = z at this ⊢
  intro _
  cases this with
  | num ha hb h =>
    cases ha
    cases hb
    exact h
  | _ => simp [Eval.Bitwise] at hop

theorem arith_bit (L : Lib) {op : ArithOp} (h : op ≠ .pow) (a b : F64) : (num L).arith op a b = arithConst L op a b := if_neg h

theorem standard (L : Lib) (hL : Shortest L) : Standard L (num L) where
  nan := rfl
  zero := rfl
  one := rfl
  cmp _ _ := rfl
  add _ _ := rfl
  sub _ _ := rfl
  mul _ _ := rfl
  div _ _ := rfl
  rem := rem_spec
  ofStr s := Eval.coerceStr_iff.2 rfl
  toStr := numberString_spec hL
  bigToStr _ := rfl
  bitAnd a b := by
    rw [arith_bit L (by simp)]
    exact bit_spec L .bitAnd (by simp [Eval.Bitwise]) (f := fun l r => Eval.i32Num (l &&& r)) (fun _ _ => rfl) a b
  bitOr a b := by
    rw [arith_bit L (by simp)]
    exact bit_spec L .bitOr (by simp [Eval.Bitwise]) (f := fun l r => Eval.i32Num (l ||| r)) (fun _ _ => rfl) a b
  bitXor a b := by
    rw [arith_bit L (by simp)]
    exact bit_spec L .bitXor (by simp [Eval.Bitwise]) (f := fun l r => Eval.i32Num (l ^^^ r)) (fun _ _ => rfl) a b
  shl a b := by
    rw [arith_bit L (by simp)]
    exact bit_spec L .shl (by simp [Eval.Bitwise]) (f := fun l r => Eval.i32Num (l <<< (r &&& 0x1f#32).toNat)) (fun _ _ => rfl) a b
  shr a b := by
    rw [arith_bit L (by simp)]
    exact bit_spec L .shr (by simp [Eval.Bitwise]) (f := fun l r => Eval.i32Num (l.sshiftRight (r &&& 0x1f#32).toNat)) (fun _ _ => rfl) a b
  ushr a b := by
    rw [arith_bit L (by simp)]
    exact bit_spec L .ushr (by simp [Eval.Bitwise]) (f := fun l r => Eval.u32Num (l >>> (r &&& 0x1f#32).toNat)) (fun _ _ => rfl) a b
  pow a b h := by
    cases b with
    | nan => exact absurd .nan h
    | inf s =>
      show (if a = Eval.one ∨ a = Eval.one.neg then .nan else L.pow a (.inf s)) = _
      rw [if_neg fun h' => h (.inf h')]
    | fin s m => rfl
  powNan a b h := by
    cases h with
    | nan => rfl
    | inf h => exact if_pos h

/-- A library whose numbers all look alike. -/
def lib : Lib := Eval.sampleLib

theorem shortest : Shortest lib := fun _ _ =>
  ⟨fun d hd => by
    have : d = 49 := by simpa [lib, Eval.sampleLib] using hd
    omega, ⟨49, [], rfl, by decide⟩, ⟨[], 49, rfl, by decide⟩⟩

/-- The host of C79 with doubles. -/
def host : Host F64 Unit Bool (List (Val F64)) Str Nat (Expr.Toy.World F64) := Expr.Toy.hostOf (num lib) Eval.number

theorem host_standard : Standard lib host.num := standard lib shortest

def world : Expr.Toy.World F64 := Expr.Toy.worldOf Eval.number

/-- Strict code. -/
def ctx : Expr.Ctx F64 Unit := ⟨(), .undef, .undef, true⟩

abbrev X := Expr F64 Str Nat

/-- What an expression evaluates to… -/
def before (x : X) : Option (Out (Val F64) (Val F64) × Expr.Toy.World F64) := Expr.Ecma.value host ctx true 20 x world

/-- …and after folding. -/
def after (x : X) : Option (Out (Val F64) (Val F64) × Expr.Toy.World F64) :=
  Expr.Ecma.value host ctx true 20 (fold lib false .value x) world

/-- A name. -/
def v (x : String) : X := .id (ascii x)

/-- A number. -/
def i (a : Int) : X := .num (Eval.number a)

end Verif.Fold.Toy
