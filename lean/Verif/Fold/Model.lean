import Verif.Eval.Theorems
import Verif.Eval.TextTheorems
import Verif.Expr.Full
/-!
# Constant folding in the minifier

`fold_expr` of `minify-js/src/opt/const_fold.rs`, with everything it calls, on the expressions of `Verif.Expr`.  A Rust
string is the list of its UTF-16 code units: the functions here look for white space, signs, digits and letters of the
BMP, compare by `encode_utf16`, or append.  Doubles are `Eval.F64`.  The flag `changed` only ends the passes and is left
out.

`P` and `C`, patterns and the code of functions and classes, are left as they are: `fold_pat` and `fold_func` apply
`fold_expr` to the expressions in them.
-/

namespace Verif.Fold
open Verif.Expr (Expr Args Elems Parts Members BinOp UnOp ArithOp ascii Str)
open Verif.Eval (Const F64 Lib)

/-- `ExprCtx`: const_fold.rs 38–42.  In a condition only the truth of the value counts. -/
inductive Ctx where
  | value
  | condition
deriving DecidableEq

/-! ## Constants -/

/-- `ConstVal::is_nullish`: const_fold.rs 54–58. -/
def isNullish : Const → Bool
  | .null | .undef => true
  | _ => false

/-- `js_to_uint32`: const_fold.rs 1001–1008. -/
def toUint32 (n : F64) : BitVec 32 :=
  if n.isFinite = false ∨ n.eq (.fin false 0) then 0
  else Eval.asU32 (Eval.remEuclid n.trunc (.fin false (2 ^ 32 * Eval.scale)))

/-- `js_str_cmp`: const_fold.rs 1014–1027. -/
def strCmp : Str → Str → Ordering
  | [], [] => .eq
  | [], _ :: _ => .lt
  | _ :: _, [] => .gt
  | a :: s, b :: t =>
    match compare a b with
    | .eq => strCmp s t
    | o => o

/-- `str::split_once` for one character. -/
def splitOnce (c : Nat) : List Nat → Option (List Nat × List Nat)
  | [] => none
  | d :: s =>
    if d = c then some ([], s)
    else (splitOnce c s).map fun p => (d :: p.1, p.2)

/-- `str::parse::<i32>` on a number that fits. -/
def parseI32 (s : List Nat) : Option Int :=
  let (_, neg, ds) := Eval.stripSign s
  if ds ≠ [] ∧ ds.all Eval.isDigit then
    some (if neg then -(Eval.parseDigits 10 ds : Int) else Eval.parseDigits 10 ds)
  else none

/-- `parse_ryu_to_decimal`: const_fold.rs 1213–1240. -/
def parseRyu (raw : List Nat) : List Nat × Int :=
  let (mantissa, exp) := match splitOnce 101 raw with
    | some (m, e) => (m, (parseI32 e).getD 0)
    | none => (raw, 0)
  match splitOnce 46 mantissa with
  | some (int, frac) => ((int ++ frac).dropWhile (· == 48), exp - frac.length)
  | none => (mantissa.dropWhile (· == 48), exp)

/-- `js_number_to_string`: const_fold.rs 1148–1210, from the digits on. -/
def layout (digits : List Nat) (k : Int) : List Nat :=
  if 0 < k ∧ k ≤ 21 then
    if (digits.length : Int) ≤ k then digits ++ List.replicate (k.toNat - digits.length) 48
    else digits.take k.toNat ++ 46 :: digits.drop k.toNat
  else if k ≤ 0 ∧ -6 < k then [48, 46] ++ List.replicate (-k).toNat 48 ++ digits
  else
    match digits with
    | [] => []
    | first :: rest =>
      first :: (if rest = [] then [] else 46 :: rest) ++ 101 ::
        (if 0 ≤ k - 1 then 43 :: Values.toDigits (k - 1).toNat else 45 :: Values.toDigits (-(k - 1)).toNat)

/-- `js_number_to_string`: const_fold.rs 1148–1210. -/
def numberString (L : Lib) (x : F64) : Str :=
  match x with
  | .nan => ascii "NaN"
  | .inf neg => if neg then ascii "-Infinity" else ascii "Infinity"
  | .fin neg m =>
    if m = 0 then ascii "0"
    else
      let p := parseRyu (Eval.displayNum L (.fin false m))
      (if neg then [45] else []) ++ layout p.1 (p.2 + p.1.length)

/-- `const_to_number`: const_fold.rs 967–982.  `coerce_str_to_num`, 1030–1145, is line by line the function of
optimize-js that `Eval.coerceStr` models, except that it converts integers by way of their decimal text. -/
def toNumber : Const → Option F64
  | .undef => some .nan
  | .null => some (.fin false 0)
  | .bool b => some (if b then Eval.one else .fin false 0)
  | .num n => some n
  | .str s => some (Eval.coerceStr s)
  | .bigint _ => none

/-- `const_to_string`: const_fold.rs 984–999; it never fails.  The value of a BigInt literal is its canonical decimal
text: `normalise_literal_bigint`, parse-js/src/parse/expr/lit.rs 45–94. -/
def toString (L : Lib) : Const → Str
  | .undef => ascii "undefined"
  | .null => ascii "null"
  | .bool b => if b then ascii "true" else ascii "false"
  | .num n => numberString L n
  | .str s => s
  | .bigint i => Eval.intText i

/-- `const_typeof`: const_fold.rs 919–928. -/
def typeofText : Const → Str
  | .undef => ascii "undefined"
  | .null => ascii "object"
  | .bool _ => ascii "boolean"
  | .num _ => ascii "number"
  | .str _ => ascii "string"
  | .bigint _ => ascii "bigint"

/-- `js_strict_eq`: const_fold.rs 930–940.  Canonical decimal texts are equal if the numbers are. -/
def strictEq : Const → Const → Bool
  | .undef, .undef => true
  | .null, .null => true
  | .bool a, .bool b => a == b
  | .num a, .num b => a.eq b
  | .str a, .str b => a == b
  | .bigint a, .bigint b => a == b
  | _, _ => false

/-- `js_loose_eq`, the arms for values that are not booleans: const_fold.rs 942–965. -/
def looseBase : Const → Const → Option Bool
  | .bigint _, _ | _, .bigint _ => none
  | .undef, .null | .null, .undef => some true
  | .undef, .undef => some true
  | .null, .null => some true
  | .num a, .num b => some (strictEq (.num a) (.num b))
  | .str a, .str b => some (strictEq (.str a) (.str b))
  | .num l, .str r => some (l.eq (Eval.coerceStr r))
  | .str l, .num r => some ((Eval.coerceStr l).eq r)
  | _, _ => some false

/-- A boolean as a number. -/
def ofBool (b : Bool) : Const := .num (if b then Eval.one else .fin false 0)

/-- `js_loose_eq`: const_fold.rs 942–965. -/
def looseEq : Const → Const → Option Bool
  | .bigint _, _ | _, .bigint _ => none
  | .bool a, .bool b => some (strictEq (.bool a) (.bool b))
  | .bool l, r => looseBase (ofBool l) r
  | l, .bool r => looseBase l (ofBool r)
  | l, r => looseBase l r

/-- `const_truthiness`, from the constant: const_fold.rs 842–851. -/
def truthy : Const → Bool
  | .undef | .null => false
  | .bool b => b
  | .num n => !n.eq (.fin false 0) && !n.isNan
  | .str s => s ≠ []
  | .bigint i => i ≠ 0

/-- `<`, `<=`, `>`, `>=` of doubles, from `partial_cmp`. -/
def compareNum (op : BinOp) (o : Option Ordering) : Bool :=
  match op with
  | .lt => o == some .lt
  | .le => o == some .lt || o == some .eq
  | .gt => o == some .gt
  | _ => o == some .gt || o == some .eq

/-- `<`, `<=`, `>`, `>=`: const_fold.rs 749–780. -/
def compareConst (op : BinOp) (l r : Const) : Option Bool :=
  match l, r with
  | .bigint _, _ | _, .bigint _ => none
  | .str l, .str r =>
    let o := strCmp l r
    some (match op with
      | .lt => o.isLT
      | .le => o.isLE
      | .gt => o.isGT
      | _ => o.isGE)
  | l, r => do
    let l ← toNumber l
    let r ← toNumber r
    some (compareNum op (l.cmp r))

/-- `fold_binary_expr` for two constants: const_fold.rs 626–709, 749–798. -/
def binaryConst (L : Lib) (op : BinOp) (l r : Const) : Option Const :=
  match op with
  | .add =>
    match l, r with
    | .num l, .num r => some (.num (l.add r))
    | .str l, other => some (.str (l ++ toString L other))
    | other, .str r => some (.str (toString L other ++ r))
    | _, _ => none
  | .sub =>
    match l, r with
    | .num l, .num r => some (.num (l.sub r))
    | _, _ => none
  | .mul =>
    match l, r with
    | .num l, .num r => some (.num (l.mul r))
    | _, _ => none
  | .div =>
    match l, r with
    | .num l, .num r => some (.num (l.div r))
    | _, _ => none
  | .rem =>
    match l, r with
    | .num l, .num r => some (.num (l.rem r))
    | _, _ => none
  | .lt | .le | .gt | .ge => (compareConst op l r).map .bool
  | .strictEq => some (.bool (strictEq l r))
  | .strictNe => some (.bool (!strictEq l r))
  | .eq => (looseEq l r).map .bool
  | .ne => (looseEq l r).map fun b => .bool (!b)
  | .in_ | .instanceof => none

/-- The shift count: `js_to_uint32(r) & 0x1f`. -/
def shiftBy (r : F64) : Nat := (toUint32 r &&& 0x1f#32).toNat

/-- `fold_binary_expr` for `**` and the operators on 32-bit integers: const_fold.rs 686–748. -/
def arithConst (L : Lib) (op : ArithOp) (l r : F64) : F64 :=
  match op with
  | .pow => L.pow l r
  | .bitAnd => Eval.i32Num (toUint32 l &&& toUint32 r)
  | .bitOr => Eval.i32Num (toUint32 l ||| toUint32 r)
  | .bitXor => Eval.i32Num (toUint32 l ^^^ toUint32 r)
  | .shl => Eval.i32Num (toUint32 l <<< shiftBy r)
  | .shr => Eval.i32Num ((toUint32 l).sshiftRight (shiftBy r))
  | .ushr => Eval.u32Num (toUint32 l >>> shiftBy r)

section
variable {P C : Type}

/-! ## Expressions -/

/-- The mark `ParenthesizedExpr` of a node. -/
def wrap (mark : Bool) (x : Expr F64 P C) : Expr F64 P C := if mark then .paren x else x

/-- `is_safe_void_arg`: const_fold.rs 908–917. -/
def safeVoidArg : Expr F64 P C → Bool
  | .null | .bool _ | .num _ | .str _ | .big _ => true
  | .paren x => safeVoidArg x
  | _ => false

/-- `const_val`: const_fold.rs 892–906. -/
def constVal : Expr F64 P C → Option Const
  | .null => some .null
  | .bool b => some (.bool b)
  | .num n => some (.num n)
  | .str s => some (.str s)
  | .big i => some (.bigint i)
  | .unary .void x => if safeVoidArg x then some .undef else none
  | .paren x => constVal x
  | _ => none

/-- The literal for a result. -/
def literal : Const → Expr F64 P C
  | .undef => .unary .void (.num (.fin false 0))
  | .null => .null
  | .bool b => .bool b
  | .num n => .num n
  | .str s => .str s
  | .bigint i => .big i.natAbs

/-- `const_truthiness`: const_fold.rs 842–851. -/
def truthiness (x : Expr F64 P C) : Option Bool := (constVal x).map truthy

/-- `is_lit_true` and `is_lit_false`: const_fold.rs 853–859. -/
def isLit (b : Bool) : Expr F64 P C → Bool
  | .bool a => a == b
  | .paren x => isLit b x
  | _ => false

/-- `fold_binary_expr` for the operators above. -/
def foldBinary (L : Lib) (op : BinOp) (x y : Expr F64 P C) : Option (Expr F64 P C) := do
  let l ← constVal x
  let r ← constVal y
  (binaryConst L op l r).map literal

/-- `fold_binary_expr` for `**` and the operators on 32-bit integers. -/
def foldArith (L : Lib) (op : ArithOp) (x y : Expr F64 P C) : Option (Expr F64 P C) :=
  match constVal x, constVal y with
  | some (.num l), some (.num r) => some (.num (arithConst L op l r))
  | _, _ => none

/-- `fold_binary_expr` for `??`: const_fold.rs 799–808. -/
def foldNullish (x y : Expr F64 P C) : Option (Expr F64 P C) :=
  (constVal x).map fun l => if isNullish l then y else x

/-- `fold_binary_expr` for `&&`: const_fold.rs 809–822. -/
def foldAnd (ctx : Ctx) (x y : Expr F64 P C) : Option (Expr F64 P C) :=
  match truthiness x with
  | some t => some (if t then y else x)
  | none => if ctx = .condition ∧ isLit true y then some x else none

/-- `fold_binary_expr` for `||`: const_fold.rs 823–836. -/
def foldOr (ctx : Ctx) (x y : Expr F64 P C) : Option (Expr F64 P C) :=
  match truthiness x with
  | some t => some (if t then x else y)
  | none => if ctx = .condition ∧ isLit false y then some x else none

/-- `!` and `typeof` of a constant: const_fold.rs 431–459; the mark of the node stays. -/
def foldNot (mark : Bool) (x : Expr F64 P C) : Expr F64 P C :=
  match truthiness x with
  | some t => wrap mark (.bool (!t))
  | none => wrap mark (.unary .not x)

def foldTypeof (mark : Bool) (x : Expr F64 P C) : Expr F64 P C :=
  match constVal x with
  | some v => wrap mark (.str (typeofText v))
  | none => wrap mark (.typeof_ x)

/-- A node that is replaced, or stays with its mark. -/
def orKeep (mark : Bool) (o : Option (Expr F64 P C)) (x : Expr F64 P C) : Expr F64 P C :=
  match o with
  | some y => y
  | none => wrap mark x

variable (L : Lib)

mutual
/-- `fold_expr`: const_fold.rs 411–577.  `mark` says whether the node has the mark `ParenthesizedExpr`.  `x++` and
`x--` (`UnaryPostfix`) count as leaves there, and so do the operands of `other`. -/
def fold (mark : Bool) (ctx : Ctx) : Expr F64 P C → Expr F64 P C
  | .paren x => fold true ctx x
  | .binary op x y =>
    let x := fold false .value x
    let y := fold false .value y
    orKeep mark (foldBinary L op x y) (.binary op x y)
  | .arith op x y =>
    let x := fold false .value x
    let y := fold false .value y
    orKeep mark (foldArith L op x y) (.arith op x y)
  | .comma x y => wrap mark (.comma (fold false .value x) (fold false .value y))
  | .nullish x y =>
    let x := fold false .value x
    let y := fold false .value y
    orKeep mark (foldNullish x y) (.nullish x y)
  | .and x y =>
    let x := fold false ctx x
    let y := fold false ctx y
    orKeep mark (foldAnd ctx x y) (.and x y)
  | .or x y =>
    let x := fold false ctx x
    let y := fold false ctx y
    orKeep mark (foldOr ctx x y) (.or x y)
  | .assign x y => wrap mark (.assign (fold false .value x) (fold false .value y))
  | .addAssign x y => wrap mark (.addAssign (fold false .value x) (fold false .value y))
  | .assignPat p y => wrap mark (.assignPat p (fold false .value y))
  | .unary op x =>
    let x := fold false .value x
    if op = .not then foldNot mark x else wrap mark (.unary op x)
  | .typeof_ x => foldTypeof mark (fold false .value x)
  | .bitNot x => wrap mark (.bitNot (fold false .value x))
  | .delete_ x => wrap mark (.delete_ (fold false .value x))
  | .new_ x => wrap mark (.new_ (fold false .value x))
  | .update true inc x => wrap mark (.update true inc (fold false .value x))
  | .update false inc x => wrap mark (.update false inc x)
  | .cond x y z =>
    let x := fold false .condition x
    let y := fold false ctx y
    let z := fold false ctx z
    orKeep mark ((truthiness x).map fun t => if t then y else z) (.cond x y z)
  | .call opt f as => wrap mark (.call opt (fold false .value f) (foldArgs as))
  | .index opt x y => wrap mark (.index opt (fold false .value x) (fold false .value y))
  | .member opt x name => wrap mark (.member opt (fold false .value x) name)
  | .arr es => wrap mark (.arr (foldElems es))
  | .object ms => wrap mark (.object (foldMembers ms))
  | .template ps => wrap mark (.template (foldParts ps))
  | .this_ => wrap mark .this_
  | .newTarget => wrap mark .newTarget
  | .null => wrap mark .null
  | .bool b => wrap mark (.bool b)
  | .num a => wrap mark (.num a)
  | .big i => wrap mark (.big i)
  | .str s => wrap mark (.str s)
  | .func anon c => wrap mark (.func anon c)
  | .id x => wrap mark (.id x)
  | .other => wrap mark .other

/-- The arguments of a call: const_fold.rs 474–485. -/
def foldArgs : Args F64 P C → Args F64 P C
  | .nil => .nil
  | .cons x as => .cons (fold false .value x) (foldArgs as)
  | .spread x as => .spread (fold false .value x) (foldArgs as)

/-- The elements of an array literal: const_fold.rs 526–537. -/
def foldElems : Elems F64 P C → Elems F64 P C
  | .nil => .nil
  | .hole es => .hole (foldElems es)
  | .cons x es => .cons (fold false .value x) (foldElems es)
  | .spread x es => .spread (fold false .value x) (foldElems es)

/-- The parts of a template: const_fold.rs 544–552. -/
def foldParts : Parts F64 P C → Parts F64 P C
  | .nil => .nil
  | .text s ps => .text s (foldParts ps)
  | .subst x ps => .subst (fold false .value x) (foldParts ps)

/-- `fold_obj_member`: const_fold.rs 348–386. -/
def foldMembers : Members F64 P C → Members F64 P C
  | .nil => .nil
  | .prop k x ms => .prop k (fold false .value x) (foldMembers ms)
  | .computed k x ms => .computed (fold false .value k) (fold false .value x) (foldMembers ms)
  | .method d k c ms => .method d k c (foldMembers ms)
  | .computedMethod d k c ms => .computedMethod d (fold false .value k) c (foldMembers ms)
  | .shorthand x ms => .shorthand x (foldMembers ms)
  | .spread x ms => .spread (fold false .value x) (foldMembers ms)
end

end

end Verif.Fold
