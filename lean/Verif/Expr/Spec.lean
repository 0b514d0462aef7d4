import Verif.Expr.Syntax
/-!
# What ECMA-262 says about expressions

The algorithms of ECMA-262 for the same syntax, over the same objects, environments and arithmetic (`Host`).
`full = true` is the standard.  With `full = false` a run gives up (`fatal`) where it meets one of the cases in which the
interpreter is known to differ: these are the uses of `within`.  Direct `eval` is taken for an ordinary call.

A few operations of ECMA-262 call themselves on the result of ToPrimitive, which is no object: here they call the part
for primitive values.
-/

namespace Verif.Expr.Ecma
open Verif.Expr

variable {F E R I P C W : Type} (H : Host F E R I P C W)

/-- Go on if `full`, or if `ok`. -/
def within (full ok : Bool) : M F W Unit := if full || ok then pure () else M.fatal

/-- Is a value `undefined` or `null`? -/
def Nullish (v : Val F) : Bool :=
  match v with
  | .undef | .null => true
  | _ => false

/-- ToBoolean, 7.1.2. -/
def toBoolean (v : Val F) : Bool :=
  match v with
  | .undef | .null => false
  | .bool b => b
  | .num a => H.num.cmp a H.num.zero == some .lt || H.num.cmp a H.num.zero == some .gt
  | .big i => i ≠ 0
  | .str s => s ≠ []
  | .sym _ | .obj _ => true

/-- IsCallable, 7.2.3. -/
def isCallable (v : Val F) : M F W Bool :=
  match v with
  | .obj o => M.ask (H.callable o)
  | _ => pure false

/-- Call, 7.3.13. -/
def call (f this : Val F) (as : List (Val F)) : M F W (Val F) :=
  match f with
  | .obj o => do if ← M.ask (H.callable o) then M.run (H.call o this as) else raise H .type
  | _ => raise H .type

/-- EvaluateNew, 13.3.5.1.1, from step 6. -/
def construct (f : Val F) (as : List (Val F)) : M F W (Val F) :=
  match f with
  | .obj o => do if ← M.ask (H.constructor o) then M.run (H.construct o as) else raise H .type
  | _ => raise H .type

/-- ToObject, 7.1.18. -/
def toObject (v : Val F) : M F W Nat :=
  match v with
  | .undef | .null => raise H .type
  | .obj o => pure o
  | v => M.run (H.box v)

/-- GetMethod of an object, 7.3.11. -/
def getMethod (o : Nat) (k : Key) : M F W (Option (Val F)) := do
  let f ← M.run (H.get o k (.obj o))
  if Nullish f then pure none
  else if ← isCallable H f then pure (some f)
  else raise H .type

/-- The preferred types of ToPrimitive. -/
inductive Prefer where
  | none
  | string
  | number

/-- OrdinaryToPrimitive, 7.1.1.1, step 3. -/
def firstPrimitive (o : Nat) : List Str → M F W (Val F)
  | [] => raise H .type
  | name :: names => do
    let f ← M.run (H.get o (.str name) (.obj o))
    if ← isCallable H f then do
      match ← call H f (.obj o) [] with
      | .obj _ => firstPrimitive o names
      | v => pure v
    else firstPrimitive o names

/-- ToPrimitive, 7.1.1. -/
def toPrimitive (v : Val F) (p : Prefer) : M F W (Val F) :=
  match v with
  | .obj o => do
    match ← getMethod H o (.sym H.toPrimitive) with
    | some f => do
      let hint := match p with
        | .none => ascii "default"
        | .string => ascii "string"
        | .number => ascii "number"
      match ← call H f (.obj o) [.str hint] with
      | .obj _ => raise H .type
      | v => pure v
    | none =>
      match p with
      | .string => firstPrimitive H o [ascii "toString", ascii "valueOf"]
      | _ => firstPrimitive H o [ascii "valueOf", ascii "toString"]
  | v => pure v

/-- ToNumber, 7.1.4, of a primitive value. -/
def numberOf (v : Val F) : M F W F :=
  match v with
  | .undef => pure H.num.nan
  | .null | .bool false => pure H.num.zero
  | .bool true => pure H.num.one
  | .num a => pure a
  | .str s => pure (H.num.ofStr s)
  | .sym _ | .big _ => raise H .type
  | .obj _ => raise H .type

/-- ToNumber, 7.1.4. -/
def toNumber (v : Val F) : M F W F := do numberOf H (← toPrimitive H v .number)

/-- ToNumeric, 7.1.3, of a primitive value. -/
def numericOf (v : Val F) : M F W (F ⊕ Int) :=
  match v with
  | .big i => pure (.inr i)
  | v => do pure (.inl (← numberOf H v))

/-- ToNumeric, 7.1.3. -/
def toNumeric (v : Val F) : M F W (F ⊕ Int) := do numericOf H (← toPrimitive H v .number)

/-- ToString, 7.1.17, of a primitive value. -/
def stringOf (v : Val F) : M F W Str :=
  match v with
  | .undef => pure (ascii "undefined")
  | .null => pure (ascii "null")
  | .bool b => pure (ascii (if b then "true" else "false"))
  | .num a => pure (H.num.toStr a)
  | .big i => pure (H.num.bigToStr i)
  | .str s => pure s
  | .sym _ => raise H .type
  | .obj _ => raise H .type

/-- ToString, 7.1.17. -/
def toString (v : Val F) : M F W Str := do stringOf H (← toPrimitive H v .string)

/-- ToPropertyKey, 7.1.19. -/
def toPropertyKey (v : Val F) : M F W Key := do
  match ← toPrimitive H v .string with
  | .sym s => pure (.sym s)
  | v => do pure (.str (← stringOf H v))

/-- IsStrictlyEqual, 7.2.15. -/
def strictlyEqual (x y : Val F) : Bool :=
  match x, y with
  | .num a, .num b => H.num.cmp a b == some .eq
  | .undef, .undef | .null, .null => true
  | .bool a, .bool b => a == b
  | .big a, .big b => a == b
  | .str a, .str b => a == b
  | .sym a, .sym b => a == b
  | .obj a, .obj b => a == b
  | _, _ => false

/-- A boolean as a number: steps 9 and 10 of IsLooselyEqual. -/
def unBool (v : Val F) : Val F :=
  match v with
  | .bool false => .num H.num.zero
  | .bool true => .num H.num.one
  | v => v

/-- Are the operands of `==`, neither of them a boolean, of the same type, or is one `undefined` or `null`, or is one a
symbol and the other no object, or are they a number and a string?  In the other cases an object is converted to a
primitive value, or a BigInt is compared with a number or a string, and the interpreter differs. -/
def easyEqual (x y : Val F) : Bool :=
  match x, y with
  | .undef, _ | .null, _ | _, .undef | _, .null => true
  | .obj _, .obj _ => true
  | .obj _, _ | _, .obj _ => false
  | .big _, .num _ | .num _, .big _ | .big _, .str _ | .str _, .big _ => false
  | _, _ => true

/-- IsLooselyEqual, 7.2.14, of two primitive values that are not booleans: steps 1 to 8, 13 and 14. -/
def looseEqualP (x y : Val F) : Bool :=
  match x, y with
  | .undef, .null | .null, .undef => true
  | .num a, .str s => H.num.cmp a (H.num.ofStr s) == some .eq
  | .str s, .num a => H.num.cmp (H.num.ofStr s) a == some .eq
  | .big i, .str s | .str s, .big i => H.num.bigOfStr s == some i
  | .big i, .num a | .num a, .big i => H.num.cmpBig i a == some .eq
  | x, y => strictlyEqual H x y

/-- IsLooselyEqual, 7.2.14. -/
def looselyEqual (full : Bool) (x y : Val F) : M F W Bool :=
  match x, y with
  | .bool a, .bool b => pure (a == b)
  | x, y => do
    let x := unBool H x
    let y := unBool H y
    within full (easyEqual x y)
    match x, y with
    | .obj a, .obj b => pure (a == b)
    | .obj o, y => do
      if Nullish y then pure false
      else do pure (looseEqualP H (unBool H (← toPrimitive H (.obj o) .none)) y)
    | x, .obj o => do
      if Nullish x then pure false
      else do pure (looseEqualP H x (unBool H (← toPrimitive H (.obj o) .none)))
    | x, y => pure (looseEqualP H x y)

/-- The order of strings by code units. -/
def strLess : Str → Str → Bool
  | _, [] => false
  | [], _ :: _ => true
  | a :: s, b :: t => a < b || (a == b && strLess s t)

/-- IsLessThan, 7.2.13, of two primitive values: nothing for `undefined`. -/
def lessPrim (x y : Val F) : M F W (Option Bool) :=
  match x, y with
  | .str s, .str t => pure (some (strLess s t))
  | .big i, .str t => pure ((H.num.bigOfStr t).map fun j => decide (i < j))
  | .str s, .big j => pure ((H.num.bigOfStr s).map fun i => decide (i < j))
  | x, y => do
    match ← numericOf H x, ← numericOf H y with
    | .inl a, .inl b => pure ((H.num.cmp a b).map (· == .lt))
    | .inr i, .inr j => pure (some (decide (i < j)))
    | .inr i, .inl b => pure ((H.num.cmpBig i b).map (· == .lt))
    | .inl a, .inr j => pure ((H.num.cmpBig j a).map (· == .gt))

/-- May a primitive value be the left operand of a comparison that the interpreter gets right? -/
def easyLeft (x : Val F) : Bool :=
  match x with
  | .big _ | .sym _ => false
  | _ => true

/-- May it be the right one, after this left one? -/
def easyRight (x y : Val F) : Bool :=
  match x, y with
  | .str _, .str _ => false
  | _, .big _ => false
  | _, _ => true

/-- The operands of a comparison: both become primitive values, the left one first. -/
def comparands (full : Bool) (l r : Val F) : M F W (Val F × Val F) := do
  let x ← toPrimitive H l .number
  within full (easyLeft x)
  let y ← toPrimitive H r .number
  within full (easyRight x y)
  pure (x, y)

/-- `<`, `>`, `<=`, `>=`, 13.10.1. -/
def compare (full : Bool) (op : BinOp) (l r : Val F) : M F W (Val F) := do
  let (x, y) ← comparands H full l r
  match op with
  | .lt => do pure (.bool ((← lessPrim H x y) == some true))
  | .gt => do pure (.bool ((← lessPrim H y x) == some true))
  | .le => do pure (.bool ((← lessPrim H y x) == some false))
  | _ => do pure (.bool ((← lessPrim H x y) == some false))

/-- BigInt::subtract, BigInt::divide and BigInt::remainder, 6.1.6.2. -/
def bigArith (op : BinOp) (i j : Int) : M F W (Val F) :=
  match op with
  | .add => pure (.big (i + j))
  | .mul => pure (.big (i * j))
  | .sub => pure (.big (i - j))
  | .div => if j = 0 then raise H .range else pure (.big (i.tdiv j))
  | _ => if j = 0 then raise H .range else pure (.big (i.tmod j))

/-- The same for numbers, 6.1.6.1. -/
def numArith (op : BinOp) (a b : F) : F :=
  match op with
  | .add => H.num.add a b
  | .mul => H.num.mul a b
  | .sub => H.num.sub a b
  | .div => H.num.div a b
  | _ => H.num.rem a b

/-- ApplyStringOrNumericBinaryOperator, 13.15.3, from step 3.  The interpreter has no `-`, `/` and `%` of BigInts. -/
def arith (full : Bool) (op : BinOp) (l r : Val F) : M F W (Val F) := do
  let a ← toNumeric H l
  within full (op == .add || op == .mul || a.isLeft)
  let b ← toNumeric H r
  match a, b with
  | .inl a, .inl b => pure (.num (numArith H op a b))
  | .inr i, .inr j => bigArith H op i j
  | _, _ => raise H .type

/-- `+`, 13.15.3. -/
def add (full : Bool) (l r : Val F) : M F W (Val F) := do
  let x ← toPrimitive H l .none
  let y ← toPrimitive H r .none
  match x, y with
  | .str _, _ | _, .str _ => do
    let s ← toString H x
    let t ← toString H y
    pure (.str (s ++ t))
  | _, _ => arith H full .add x y

/-- HasProperty for `in`, 13.10.1. -/
def hasProperty (l r : Val F) : M F W (Val F) :=
  match r with
  | .obj o => do
    let k ← toPropertyKey H l
    pure (.bool (← M.run (H.has o k)))
  | _ => raise H .type

/-- OrdinaryHasInstance, 7.3.22, steps 3 to 6: is the value of `prototype` a prototype of the object? -/
def hasPrototype (v : Val F) (o : Nat) : M F W Bool :=
  match v with
  | .obj i => do
    match ← M.run (H.get o (.str (ascii "prototype")) (.obj o)) with
    | .obj p => M.ask fun w => decide (p ∈ H.protos i w)
    | _ => raise H .type
  | _ => pure false

/-- InstanceofOperator and OrdinaryHasInstance, 13.10.2 and 7.3.21.  The interpreter differs for objects that are no
constructors. -/
def instanceOf (full : Bool) : Nat → Val F → Val F → M F W Bool
  | 0, _, _ => fun _ => none
  | n + 1, v, t =>
    match t with
    | .obj o => do
      within full (← M.ask (H.callable o))
      match ← getMethod H o (.sym H.hasInstance) with
      | some h => do pure (toBoolean H (← call H h (.obj o) [v]))
      | none => do
        within full (← M.ask (H.callable o))
        if ← M.ask (H.callable o) then do
          within full (← M.ask (H.constructor o))
          match ← M.ask (H.bound o) with
          | some t => instanceOf full n v (.obj t)
          | none => hasPrototype H v o
        else raise H .type
    | _ => raise H .type

/-- The operators on two values: 13.6 to 13.11. -/
def binary (full : Bool) (n : Nat) (op : BinOp) (l r : Val F) : M F W (Val F) :=
  match op with
  | .strictEq => pure (.bool (strictlyEqual H l r))
  | .strictNe => pure (.bool (!strictlyEqual H l r))
  | .eq => do pure (.bool (← looselyEqual H full l r))
  | .ne => do pure (.bool (!(← looselyEqual H full l r)))
  | .in_ => hasProperty H l r
  | .instanceof => do pure (.bool (← instanceOf H full n l r))
  | .add => add H full l r
  | .mul | .sub | .div | .rem => arith H full op l r
  | .lt | .gt | .le | .ge => compare H full op l r

/-- `!`, `+`, `-` and `void`: 13.5. -/
def unary (op : UnOp) (v : Val F) : M F W (Val F) :=
  match op with
  | .not => pure (.bool (!toBoolean H v))
  | .plus => do pure (.num (← toNumber H v))
  | .neg => do
    match ← toNumeric H v with
    | .inl a => pure (.num (H.num.neg a))
    | .inr i => pure (.big (-i))
  | .void => pure .undef

/-- `**`, the shifts and the bitwise operators, 13.15.3 from step 3: BigInts have no `>>>` (6.1.6.2.11), and `**` and
`<<` of BigInts may throw a RangeError. -/
def arithOp (op : ArithOp) (l r : Val F) : M F W (Val F) := do
  let a ← toNumeric H l
  let b ← toNumeric H r
  match a, b with
  | .inl a, .inl b => pure (.num (H.num.arith op a b))
  | .inr i, .inr j =>
    if op = .ushr then raise H .type
    else
      match H.num.bigArith op i j with
      | some k => pure (.big k)
      | none => raise H .range
  | _, _ => raise H .type

/-- `~`, 13.5.6. -/
def bitNot (v : Val F) : M F W (Val F) := do
  match ← toNumeric H v with
  | .inl a => pure (.num (H.num.bitNot a))
  | .inr i => pure (.big (-i - 1))

/-- The table of `typeof`, 13.5.3. -/
def typeName (v : Val F) : M F W Str :=
  match v with
  | .undef => pure (ascii "undefined")
  | .null => pure (ascii "object")
  | .bool _ => pure (ascii "boolean")
  | .num _ => pure (ascii "number")
  | .big _ => pure (ascii "bigint")
  | .str _ => pure (ascii "string")
  | .sym _ => pure (ascii "symbol")
  | .obj o => do if ← M.ask (H.callable o) then pure (ascii "function") else pure (ascii "object")

/-- What the evaluation of an expression gives: a value, or a Reference Record (6.2.5) for a name or a property, whose
key has not become a property key yet. -/
inductive Ref (F R : Type) where
  | value (v : Val F)
  | name (r : R) (x : Str)
  | prop (base key : Val F)

variable (c : Ctx F E)

/-- GetValue, 6.2.5.5. -/
def getValue : Ref F R → M F W (Val F)
  | .value v => pure v
  | .name r x => if H.unresolvable r then raise H .reference else M.run (H.read r x)
  | .prop base key => do
    let o ← toObject H base
    let k ← toPropertyKey H key
    M.run (H.get o k base)

/-- PutValue, 6.2.5.6.  The interpreter finds the binding of a name only now. -/
def putValue [DecidableEq R] (full : Bool) : Ref F R → Val F → M F W Unit
  | .value _, _ => raise H .reference
  | .name r x, v => do
    let now ← M.ask (H.resolve c.env x)
    within full (decide (now = r))
    M.run (H.write r x c.strict v)
  | .prop base key, v => do
    let o ← toObject H base
    let k ← toPropertyKey H key
    let ok ← M.run (H.set o k v base)
    if !ok && c.strict then raise H .type else pure ()

/-- The value of an expression that gave a reference, or that is an optional chain that ended early. -/
def valueOf (m : M F W (Option (Ref F R))) : M F W (Val F) := do
  match ← m with
  | none => pure .undef
  | some r => getValue H r

/-- An expression that gives a value. -/
def isValue (m : M F W (Val F)) : M F W (Option (Ref F R)) := do pure (some (.value (← m)))

/-- EvaluateCall's `this`, 13.3.6.2. -/
def thisOf : Ref F R → Val F
  | .prop base _ => base
  | _ => .undef

/-- IsAnonymousFunctionDefinition, 8.4.5. -/
def anonymous : Expr F P C → Option C
  | .func true f => some f
  | .paren x => anonymous x
  | _ => none

/-- NamedEvaluation, 8.4.6: anonymous functions get a name, which the interpreter does not do. -/
def named (full : Bool) (x : Expr F P C) (name : Str) (m : M F W (Val F)) : M F W (Val F) :=
  match anonymous x with
  | some f => do
    within full false
    M.run (H.closure c f (some name))
  | none => m

/-- The value of the right side of `=`, 13.15.2: an anonymous function gets the name on the left. -/
def assigned (full : Bool) (x y : Expr F P C) (m : M F W (Val F)) : M F W (Val F) :=
  match x with
  | .id name => named H c full y name m
  | _ => m

/-- The name of a function from a property key: SetFunctionName, 10.2.9.  Symbols are left out: the name is the
description in brackets. -/
def keyName : Key → Str
  | .str s => s
  | .sym _ => []

/-- The delete operator, 13.5.1.2.  In strict code `delete x` is an early error, which the interpreter reports when the
code runs; and it does not throw if a property cannot be deleted. -/
def delete (full : Bool) (m : M F W (Option (Ref F R))) : M F W Bool := do
  match ← m with
  | none => pure true
  | some (.value _) => pure true
  | some (.name r x) => do
    within full (!c.strict)
    if H.unresolvable r then pure true else M.run (H.remove r x)
  | some (.prop base key) => do
    let o ← toObject H base
    let k ← toPropertyKey H key
    let ok ← M.run (H.delete o k)
    within full (ok || !c.strict)
    if !ok && c.strict then raise H .type else pure ok

/-- The operand of `typeof`, 13.5.3.1. -/
def typeofArg (m : M F W (Option (Ref F R))) : M F W (Val F) := do
  match ← m with
  | none => pure .undef
  | some (.name r x) => if H.unresolvable r then pure .undef else getValue H (.name r x)
  | some r => getValue H r

/-- `++` and `--`, 13.4. -/
def update [DecidableEq R] (full pre inc : Bool) (m : M F W (Option (Ref F R))) : M F W (Val F) := do
  match ← m with
  | none => raise H .reference
  | some r => do
    match ← toNumeric H (← getValue H r) with
    | .inl a => do
      let new := if inc then H.num.add a H.num.one else H.num.sub a H.num.one
      putValue H c full r (.num new)
      pure (.num (if pre then new else a))
    | .inr i => do
      let new := if inc then i + 1 else i - 1
      putValue H c full r (.big new)
      pure (.big (if pre then new else i))

/-- The values of an iterator, 7.4.8, after `acc`. -/
def values {A : Type} (g : Val F → A) : Nat → I → List A → M F W (List A)
  | 0, _, _ => fun _ => none
  | n + 1, i, acc => do
    match ← M.run (H.step i) with
    | (none, _) => pure acc
    | (some v, i) => values g n i (acc ++ [g v])

/-- CreateDataPropertyOrThrow, 7.3.7. -/
def createProperty (o : Nat) (k : Key) (v : Val F) : M F W Unit := do
  if ← M.run (H.define o k v) then pure () else raise H .type

/-- CopyDataProperties, 7.3.26, step 4: one key, if there is an own property that is enumerable. -/
def copyOne (o src : Nat) (k : Key) : M F W Unit := do
  if (← M.run (H.own src k)) = some true then do
    let v ← M.run (H.get src k (.obj src))
    createProperty H o k v
  else pure ()

/-- CopyDataProperties, 7.3.26, step 4. -/
def copyAll (o src : Nat) : List Key → M F W Unit
  | [] => pure ()
  | k :: ks => do
    copyOne H o src k
    copyAll o src ks

/-- CopyDataProperties, 7.3.26. -/
def copyFrom (o : Nat) (v : Val F) : M F W Unit := do
  if Nullish v then pure ()
  else do
    let src ← toObject H v
    copyAll H o src (← M.run (H.ownKeys src))

/-- PropertyDefinition : PropertyName : AssignmentExpression, 13.2.5.5.  `__proto__: v` sets the prototype, which the
interpreter does not do. -/
def property (full : Bool) (o : Nat) (k : Str) (x : Expr F P C) (m : M F W (Val F)) : M F W Unit :=
  if k = ascii "__proto__" then do
    within full false
    let v ← m
    match v with
    | .obj _ | .null => M.run (H.setProto o v)
    | _ => pure ()
  else do
    let v ← named H c full x k m
    createProperty H o (.str k) v

/-- Is the node an optional chain that a pair of parentheses ends?  The interpreter does not see the parentheses. -/
def closedChain : Expr F P C → Bool
  | .paren x => hasOpt x
  | _ => false
where
  hasOpt : Expr F P C → Bool
    | .member opt _ _ => opt
    | .index opt _ _ => opt
    | .paren x => hasOpt x
    | _ => false

/-- Is the node a call in parentheses?  The interpreter takes `new (f())` for `new f()`. -/
def parenCall : Expr F P C → Bool
  | .paren x => isCall x
  | _ => false
where
  isCall : Expr F P C → Bool
    | .call _ _ _ => true
    | .paren x => isCall x
    | _ => false

mutual
/-- Evaluation, chapter 13.  Nothing is an optional chain (13.3.9) that has ended early because a value is `undefined`
or `null`; parentheses end the chain. -/
def eval [DecidableEq R] (full : Bool) (n : Nat) : Expr F P C → M F W (Option (Ref F R))
  | .this_ => isValue (pure c.this)
  | .newTarget => isValue (pure c.newTarget)
  | .null => isValue (pure .null)
  | .bool b => isValue (pure (.bool b))
  | .num a => isValue (pure (.num a))
  | .big i => isValue (pure (.big i))
  | .str s => isValue (pure (.str s))
  | .template ps => isValue (do pure (.str (← template full n ps)))
  | .arr es => isValue (do M.run (H.array (← elements full n es [])))
  | .object ms => isValue (do
      let o ← M.run H.object
      members full n o ms
      pure (.obj o))
  | .func _ f => isValue (M.run (H.closure c f none))
  | .id x => do pure (some (.name (← M.ask (H.resolve c.env x)) x))
  | .paren x => do
    match ← eval full n x with
    | none => pure (some (.value .undef))
    | some r => pure (some r)
  | .member opt x name => do
    match ← eval full n x with
    | none => pure none
    | some r => do
      let base ← getValue H r
      if opt && Nullish base then pure none else pure (some (.prop base (.str name)))
  | .index opt x y => do
    match ← eval full n x with
    | none => pure none
    | some r => do
      let base ← getValue H r
      if opt && Nullish base then pure none
      else do
        let key ← valueOf H (eval full n y)
        pure (some (.prop base key))
  | .call opt f as => do
    within full (!closedChain f)
    match ← eval full n f with
    | none => do
      within full (!parenCall.isCall f)
      pure none
    | some r => do
      let g ← getValue H r
      if opt && Nullish g then pure none
      else do
        let as ← arguments full n as []
        isValue (call H g (thisOf r) as)
  | .new_ (.call _ f as) => isValue (do
      let g ← valueOf H (eval full n f)
      let as ← arguments full n as []
      construct H g as)
  | .new_ x => isValue (do
      within full (!parenCall x)
      let g ← valueOf H (eval full n x)
      construct H g [])
  | .unary op x => isValue (do
      let v ← valueOf H (eval full n x)
      unary H op v)
  | .typeof_ x => isValue (do
      let v ← typeofArg H (eval full n x)
      pure (.str (← typeName H v)))
  | .delete_ x => isValue (do pure (.bool (← delete H c full (eval full n x))))
  | .update pre inc x => isValue (update H c full pre inc (eval full n x))
  | .assign x y => isValue (do
      match ← eval full n x with
      | none => raise H .reference
      | some r => do
        let v ← assigned H c full x y (valueOf H (eval full n y))
        putValue H c full r v
        pure v)
  | .assignPat p y => isValue (do
      let v ← valueOf H (eval full n y)
      M.run (H.bindPat c p v)
      pure v)
  | .addAssign x y => isValue (do
      match ← eval full n x with
      | none => raise H .reference
      | some r => do
        let a ← getValue H r
        let b ← valueOf H (eval full n y)
        let v ← add H full a b
        putValue H c full r v
        pure v)
  | .and x y => isValue (do
      let a ← valueOf H (eval full n x)
      if toBoolean H a then valueOf H (eval full n y) else pure a)
  | .or x y => isValue (do
      let a ← valueOf H (eval full n x)
      if toBoolean H a then pure a else valueOf H (eval full n y))
  | .nullish x y => isValue (do
      let a ← valueOf H (eval full n x)
      if Nullish a then valueOf H (eval full n y) else pure a)
  | .binary op x y => isValue (do
      let a ← valueOf H (eval full n x)
      let b ← valueOf H (eval full n y)
      binary H full n op a b)
  | .cond x y z => isValue (do
      let a ← valueOf H (eval full n x)
      if toBoolean H a then valueOf H (eval full n y) else valueOf H (eval full n z))
  | .arith op x y => isValue (do
      within full false
      let a ← valueOf H (eval full n x)
      let b ← valueOf H (eval full n y)
      arithOp H op a b)
  | .bitNot x => isValue (do
      within full false
      let a ← valueOf H (eval full n x)
      bitNot H a)
  | .comma x y => isValue (do
      within full false
      let _ ← valueOf H (eval full n x)
      valueOf H (eval full n y))
  | .other => M.fatal

/-- ArgumentListEvaluation, 13.3.8.1. -/
def arguments [DecidableEq R] (full : Bool) (n : Nat) : Args F P C → List (Val F) → M F W (List (Val F))
  | .nil, acc => pure acc
  | .cons x as, acc => do
    let v ← valueOf H (eval full n x)
    arguments full n as (acc ++ [v])
  | .spread x as, acc => do
    let v ← valueOf H (eval full n x)
    let i ← M.run (H.iter v)
    let acc ← values H id n i acc
    arguments full n as acc

/-- ArrayAccumulation, 13.2.4.1. -/
def elements [DecidableEq R] (full : Bool) (n : Nat) :
    Elems F P C → List (Option (Val F)) → M F W (List (Option (Val F)))
  | .nil, acc => pure acc
  | .hole es, acc => elements full n es (acc ++ [none])
  | .cons x es, acc => do
    let v ← valueOf H (eval full n x)
    elements full n es (acc ++ [some v])
  | .spread x es, acc => do
    let v ← valueOf H (eval full n x)
    let i ← M.run (H.iter v)
    let acc ← values H some n i acc
    elements full n es acc

/-- Template literals, 13.2.8.6. -/
def template [DecidableEq R] (full : Bool) (n : Nat) : Parts F P C → M F W Str
  | .nil => pure []
  | .text s ps => do pure (s ++ (← template full n ps))
  | .subst x ps => do
    let v ← valueOf H (eval full n x)
    let s ← toString H v
    pure (s ++ (← template full n ps))

/-- PropertyDefinitionEvaluation, 13.2.5.5. -/
def members [DecidableEq R] (full : Bool) (n : Nat) (o : Nat) : Members F P C → M F W Unit
  | .nil => pure ()
  | .prop k x ms => do
    property H c full o k x (valueOf H (eval full n x))
    members full n o ms
  | .computed k x ms => do
    let kv ← valueOf H (eval full n k)
    let key ← toPropertyKey H kv
    let v ← named H c full x (keyName key) (valueOf H (eval full n x))
    createProperty H o key v
    members full n o ms
  | .method d k f ms => do
    M.run (H.method c d o (.str k) f)
    members full n o ms
  | .computedMethod d k f ms => do
    let kv ← valueOf H (eval full n k)
    let key ← toPropertyKey H kv
    M.run (H.method c d o key f)
    members full n o ms
  | .shorthand x ms => do
    let r ← M.ask (H.resolve c.env x)
    let v ← getValue H (.name r x)
    createProperty H o (.str x) v
    members full n o ms
  | .spread x ms => do
    let v ← valueOf H (eval full n x)
    copyFrom H o v
    members full n o ms
end

/-- The value of an expression. -/
def value [DecidableEq R] (full : Bool) (n : Nat) (x : Expr F P C) : M F W (Val F) := valueOf H (eval H c full n x)

end Verif.Expr.Ecma
