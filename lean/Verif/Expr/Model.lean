import Verif.Expr.Syntax
/-!
# The interpreter's expressions

Source: `vm-js/src/exec.rs` 2818–4961, with `ops.rs`, `property.rs` 203–262 and `object_ops.rs`.  Not modelled: ticks
(C24), roots (C06), the text of error messages, direct `eval` and tagged templates (both count as fatal here, so that
the theorems say nothing about expressions with them).
-/

namespace Verif.Expr

section
variable {F E R I P C W : Type} (H : Host F E R I P C W)

/-- `is_nullish`: exec.rs 4985–4987. -/
def isNullish : Val F → Bool
  | .undef => true
  | .null => true
  | _ => false

/-- `==` of `f64`. -/
def feq (N : Num F) (a b : F) : Bool := N.cmp a b == some .eq
/-- `is_nan` of `f64`. -/
def isNaN (N : Num F) (a : F) : Bool := (N.cmp a a).isNone
/-- `<` of `f64`. -/
def flt (N : Num F) (a b : F) : Bool := N.cmp a b == some .lt
/-- `>` of `f64`. -/
def fgt (N : Num F) (a b : F) : Bool := N.cmp a b == some .gt
/-- `<=` of `f64`. -/
def fle (N : Num F) (a b : F) : Bool := N.cmp a b == some .lt || N.cmp a b == some .eq
/-- `>=` of `f64`. -/
def fge (N : Num F) (a b : F) : Bool := N.cmp a b == some .gt || N.cmp a b == some .eq

/-- `to_boolean`: exec.rs 4989–4998. -/
def toBoolean : Val F → Bool
  | .undef => false
  | .null => false
  | .bool b => b
  | .num a => !feq H.num a H.num.zero && !isNaN H.num a
  | .big i => !(i == 0)
  | .str s => !s.isEmpty
  | .sym _ => true
  | .obj _ => true

/-- `typeof_name`: exec.rs 5000–5014. -/
def typeofName : Val F → M F W (Val F)
  | .undef => pure (.str (ascii "undefined"))
  | .null => pure (.str (ascii "object"))
  | .bool _ => pure (.str (ascii "boolean"))
  | .num _ => pure (.str (ascii "number"))
  | .big _ => pure (.str (ascii "bigint"))
  | .str _ => pure (.str (ascii "string"))
  | .sym _ => pure (.str (ascii "symbol"))
  | .obj o => M.ask fun w => if H.callable o w then .str (ascii "function") else .str (ascii "object")

/-- `strict_equal`: exec.rs 5016–5028. -/
def strictEqual : Val F → Val F → Bool
  | .undef, .undef => true
  | .null, .null => true
  | .bool x, .bool y => x == y
  | .num x, .num y => feq H.num x y
  | .big x, .big y => x == y
  | .str x, .str y => x == y
  | .sym x, .sym y => x == y
  | .obj x, .obj y => x == y
  | _, _ => false

/-- `is_callable`: heap.rs 679–688. -/
def isCallable : Val F → M F W Bool
  | .obj o => M.ask (H.callable o)
  | _ => pure false

/-- `call_with_host_and_hooks`: vm.rs 1200–1300.  A value that is no function is `VmError::NotCallable`, which becomes
a TypeError at the end of the statement. -/
def callV (f this : Val F) (as : List (Val F)) : M F W (Val F) := do
  if ← isCallable H f then
    match f with
    | .obj o => M.run (H.call o this as)
    | _ => M.fatal
  else raise H .type

/-- `construct`, and the TypeError for `VmError::NotConstructable`: exec.rs 4108–4118, vm.rs 1433–1480. -/
def constructV (f : Val F) (as : List (Val F)) : M F W (Val F) :=
  match f with
  | .obj o => do if ← M.ask (H.constructor o) then M.run (H.construct o as) else raise H .type
  | _ => raise H .type

/-- The hints of `ToPrimitive`: exec.rs 788–803. -/
inductive Hint where
  | default
  | string
  | number

/-- `ToPrimitiveHint::as_str`. -/
def Hint.name : Hint → Str
  | .default => ascii "default"
  | .string => ascii "string"
  | .number => ascii "number"

/-- The loop of `ordinary_to_primitive`: exec.rs 4725–4751. -/
def tryMethods (o : Nat) : List String → M F W (Val F)
  | [] => raise H .type
  | name :: names => do
    let m ← M.run (H.get o (.str (ascii name)) (.obj o))
    if isNullish m then tryMethods o names
    else if ← isCallable H m then do
      match ← callV H m (.obj o) [] with
      | .obj _ => tryMethods o names
      | r => pure r
    else tryMethods o names

/-- `ordinary_to_primitive`: exec.rs 4710–4757. -/
def ordinaryToPrimitive (o : Nat) : Hint → M F W (Val F)
  | .string => tryMethods H o ["toString", "valueOf"]
  | _ => tryMethods H o ["valueOf", "toString"]

/-- `to_primitive`: exec.rs 4662–4708. -/
def toPrim (v : Val F) (h : Hint) : M F W (Val F) :=
  match v with
  | .obj o => do
    let m ← M.run (H.get o (.sym H.toPrimitive) (.obj o))
    if isNullish m then ordinaryToPrimitive H o h
    else if ← isCallable H m then do
      match ← callV H m (.obj o) [.str h.name] with
      | .obj _ => raise H .type
      | r => pure r
    else raise H .type
  | v => pure v

/-- `ops::to_number` for primitive values: ops.rs 25–42.  Errors are TypeErrors. -/
def toNumber : Val F → M F W F
  | .undef => pure H.num.nan
  | .null => pure H.num.zero
  | .bool b => pure (if b then H.num.one else H.num.zero)
  | .num a => pure a
  | .big _ => raise H .type
  | .str s => pure (H.num.ofStr s)
  | .sym _ => raise H .type
  | .obj _ => pure (H.num.ofStr (ascii "[object Object]"))

/-- `to_number_operator`: exec.rs 4755–4767. -/
def toNumberOp (v : Val F) : M F W F := do toNumber H (← toPrim H v .number)

/-- `Heap::to_string`: property.rs 229–252. -/
def toStringP : Val F → M F W Str
  | .undef => pure (ascii "undefined")
  | .null => pure (ascii "null")
  | .bool true => pure (ascii "true")
  | .bool false => pure (ascii "false")
  | .num a => pure (H.num.toStr a)
  | .big i => pure (H.num.bigToStr i)
  | .str s => pure s
  | .sym _ => raise H .type
  | .obj _ => M.fatal

/-- `to_string_operator`: exec.rs 4769–4788. -/
def toStringOp (v : Val F) : M F W Str := do toStringP H (← toPrim H v .string)

/-- `NumericValue`: exec.rs 781–786. -/
inductive Numeric (F : Type) where
  | num (a : F)
  | big (i : Int)

/-- `to_numeric`: exec.rs 4842–4856. -/
def toNumericOp (v : Val F) : M F W (Numeric F) := do
  match ← toPrim H v .number with
  | .big i => pure (.big i)
  | v => do pure (.num (← toNumber H v))

/-- `to_property_key`: property.rs 210–219. -/
def toPropertyKey : Val F → M F W Key
  | .str s => pure (.str s)
  | .sym s => pure (.sym s)
  | .obj _ => M.fatal
  | v => do pure (.str (← toStringP H v))

/-- A BigInt, or `VmError::Unimplemented` if it is too large. -/
def bigOr (i : Int) : M F W (Val F) := if H.fits i then pure (.big i) else M.fatal

/-- `addition_operator`: exec.rs 4790–4840. -/
def addOp (a b : Val F) : M F W (Val F) := do
  let a ← toPrim H a .default
  let b ← toPrim H b .default
  match a, b with
  | .str _, _ => do pure (.str ((← toStringOp H a) ++ (← toStringOp H b)))
  | _, .str _ => do pure (.str ((← toStringOp H a) ++ (← toStringOp H b)))
  | _, _ => do
    match ← toNumericOp H a, ← toNumericOp H b with
    | .num x, .num y => pure (.num (H.num.add x y))
    | .big x, .big y => bigOr H (x + y)
    | _, _ => raise H .type

/-- `*`: exec.rs 4477–4504. -/
def mulOp (a b : Val F) : M F W (Val F) := do
  match ← toNumericOp H a, ← toNumericOp H b with
  | .num x, .num y => pure (.num (H.num.mul x y))
  | .big x, .big y => bigOr H (x * y)
  | _, _ => raise H .type

/-- `-`, `/`, `%`, `<`, `<=`, `>` and `>=`: exec.rs 4505–4541. -/
def numOp (f : F → F → Val F) (a b : Val F) : M F W (Val F) := do
  let x ← toNumberOp H a
  let y ← toNumberOp H b
  pure (f x y)

/-- The loop of `abstract_equality`: ops.rs 45–103, where objects become strings without a call (`ops::to_primitive`,
ops.rs 7–23).  Four rounds are enough: each but the last makes a boolean a number, an object a string or a string a
number. -/
def looseEqual : Nat → Val F → Val F → M F W Bool
  | 0, _, _ => M.fatal
  | n + 1, a, b =>
    match a, b with
    | .undef, .undef => pure true
    | .null, .null => pure true
    | .bool x, .bool y => pure (x == y)
    | .num x, .num y => pure (feq H.num x y)
    | .big x, .big y => pure (x == y)
    | .str x, .str y => pure (x == y)
    | .sym x, .sym y => pure (x == y)
    | .obj x, .obj y => pure (x == y)
    | .undef, .null => pure true
    | .null, .undef => pure true
    | .num x, .str y => do looseEqual n (.num x) (.num (← toNumber H (.str y)))
    | .str x, .num y => do looseEqual n (.num (← toNumber H (.str x))) (.num y)
    | .bool x, b => do looseEqual n (.num (← toNumber H (.bool x))) b
    | a, .bool y => do looseEqual n a (.num (← toNumber H (.bool y)))
    | .obj _, .str y => looseEqual n (.str (ascii "[object Object]")) (.str y)
    | .obj _, .num y => looseEqual n (.str (ascii "[object Object]")) (.num y)
    | .obj _, .big y => looseEqual n (.str (ascii "[object Object]")) (.big y)
    | .obj _, .sym y => looseEqual n (.str (ascii "[object Object]")) (.sym y)
    | .str x, .obj _ => looseEqual n (.str x) (.str (ascii "[object Object]"))
    | .num x, .obj _ => looseEqual n (.num x) (.str (ascii "[object Object]"))
    | .big x, .obj _ => looseEqual n (.big x) (.str (ascii "[object Object]"))
    | .sym x, .obj _ => looseEqual n (.sym x) (.str (ascii "[object Object]"))
    | _, _ => pure false

/-- `in`: exec.rs 4440–4459. -/
def inOp (a b : Val F) : M F W (Val F) :=
  match b with
  | .obj o => do
    let k ← toPropertyKey H a
    pure (.bool (← M.run (H.has o k)))
  | _ => raise H .type

/-- `MAX_PROTOTYPE_CHAIN`: vm-js/src/heap.rs. -/
@[irreducible] def maxChain : Nat := 10000

/-- The walk along the prototypes in `ordinary_has_instance`: exec.rs 4637–4656. -/
def walk (p : Nat) : Nat → List Nat → M F W Bool
  | _, [] => pure false
  | 0, _ :: _ => M.fatal
  | n + 1, o :: os => if o = p then pure true else walk p n os

/-- The end of `ordinary_has_instance`: exec.rs 4618–4656. -/
def protoTest (v : Val F) (o : Nat) : M F W Bool :=
  match v with
  | .obj i => do
    match ← M.run (H.get o (.str (ascii "prototype")) (.obj o)) with
    | .obj p => do walk p maxChain (← M.ask (H.protos i))
    | _ => raise H .type
  | _ => pure false

/-- `instanceof_operator` and `ordinary_has_instance`: exec.rs 4544–4656.  `n` bounds the chain of bound functions. -/
def instanceOf : Nat → Val F → Val F → M F W Bool
  | 0, _, _ => fun _ => none
  | n + 1, v, c => do
    if ← isCallable H c then
      match c with
      | .obj o => do
        let m ← M.run (H.get o (.sym H.hasInstance) (.obj o))
        if isNullish m then do
          if ← M.ask (H.constructor o) then do
            match ← M.ask (H.bound o) with
            | some t => instanceOf n v (.obj t)
            | none => protoTest H v o
          else pure false
        else if ← isCallable H m then do pure (toBoolean H (← callV H m (.obj o) [v]))
        else raise H .type
      | _ => M.fatal
    else raise H .type

/-- The operators on two values: exec.rs 4406–4541. -/
def binOp (n : Nat) : BinOp → Val F → Val F → M F W (Val F)
  | .strictEq, a, b => pure (.bool (strictEqual H a b))
  | .strictNe, a, b => pure (.bool (!strictEqual H a b))
  | .eq, a, b => do pure (.bool (← looseEqual H 5 a b))
  | .ne, a, b => do pure (.bool (!(← looseEqual H 5 a b)))
  | .in_, a, b => inOp H a b
  | .instanceof, a, b => do pure (.bool (← instanceOf H n a b))
  | .add, a, b => addOp H a b
  | .mul, a, b => mulOp H a b
  | .sub, a, b => numOp H (fun x y => .num (H.num.sub x y)) a b
  | .div, a, b => numOp H (fun x y => .num (H.num.div x y)) a b
  | .rem, a, b => numOp H (fun x y => .num (H.num.rem x y)) a b
  | .lt, a, b => numOp H (fun x y => .bool (flt H.num x y)) a b
  | .le, a, b => numOp H (fun x y => .bool (fle H.num x y)) a b
  | .gt, a, b => numOp H (fun x y => .bool (fgt H.num x y)) a b
  | .ge, a, b => numOp H (fun x y => .bool (fge H.num x y)) a b

/-- The operators on one value: exec.rs 3959–3974, 3998–4001. -/
def unOp : UnOp → Val F → M F W (Val F)
  | .not, a => pure (.bool (!toBoolean H a))
  | .plus, a => do pure (.num (← toNumberOp H a))
  | .neg, a => do
    match ← toNumericOp H a with
    | .num x => pure (.num (H.num.neg x))
    | .big x => pure (.big (-x))
  | .void, _ => pure .undef

/-- `Reference`: exec.rs 805–815. -/
inductive VmRef where
  | name (x : Str)
  | prop (o : Nat) (k : Key)

variable (c : Ctx F E)

/-- `RuntimeEnv::get` with the ReferenceError of its callers: exec.rs 277–315, 3839–3847.  A name that has no binding
is looked up in the global object; both are `resolve` here. -/
def readName (x : Str) : M F W (Val F) := do
  let r ← M.ask (H.resolve c.env x)
  if H.unresolvable r then raise H .reference else M.run (H.read r x)

/-- `get_value_from_reference`: exec.rs 2950–2970. -/
def getRef : VmRef → M F W (Val F)
  | .name x => readName H c x
  | .prop o k => M.run (H.get o k (.obj o))

/-- `put_value_to_reference`: exec.rs 2972–2993.  A name is resolved here, when the value is there: `RuntimeEnv::set`,
exec.rs 317–389. -/
def putRef : VmRef → Val F → M F W Unit
  | .name x, v => do
    let r ← M.ask (H.resolve c.env x)
    M.run (H.write r x c.strict v)
  | .prop o k, v => do
    if ← M.run (H.set o k v (.obj o)) then pure ()
    else if c.strict then raise H .type
    else pure ()

/-- What the evaluator makes of a node: its value (`eval_expr`, exec.rs 2818–2852), a reference (`eval_reference`,
exec.rs 2896–2935), the function and `this` of a call, nothing if an optional chain ends the call
(exec.rs 4180–4245), the operand of `typeof` (exec.rs 3975–3997), `delete` of it (exec.rs 3880–3957), and `new` of
it (exec.rs 4002–4060). -/
structure Node (F W : Type) where
  val : M F W (Val F)
  ref : M F W VmRef
  callee : M F W (Option (Val F × Val F))
  typeofArg : M F W (Val F)
  del : M F W Bool
  new_ : M F W (Val F)

/-- A node that is no reference. -/
def plainNode (m : M F W (Val F)) : Node F W where
  val := m
  ref := M.fatal
  callee := do pure (some (← m, .undef))
  typeofArg := m
  del := do let _ ← m; pure true
  new_ := do constructV H (← m) []

/-- An identifier: `eval_id`, exec.rs 3839–3847, and the cases for `Expr::Id`. -/
def idNode (x : Str) : Node F W where
  val := readName H c x
  ref := pure (.name x)
  callee := do pure (some (← readName H c x, .undef))
  typeofArg := do
    let r ← M.ask (H.resolve c.env x)
    if H.unresolvable r then pure .undef else M.run (H.read r x)
  del := do
    if c.strict then raise H .type
    else do
      let r ← M.ask (H.resolve c.env x)
      if H.unresolvable r then pure true else M.run (H.remove r x)
  new_ := do constructV H (← readName H c x) []

/-- `eval_member` and `eval_computed_member`: exec.rs 2854–2894.  `key` evaluates the key. -/
def memberVal (opt : Bool) (x : M F W (Val F)) (key : M F W Key) : M F W (Val F) := do
  let b ← x
  if opt && isNullish b then pure .undef
  else match b with
    | .obj o => do getRef H c (.prop o (← key))
    | _ => M.fatal

/-- `obj.name` and `obj[key]`: the cases for `Expr::Member` and `Expr::ComputedMember`. -/
def memberNode (opt : Bool) (x : M F W (Val F)) (key : M F W Key) : Node F W where
  val := memberVal H c opt x key
  ref :=
    if opt then M.fatal
    else do
      match ← x with
      | .obj o => do pure (.prop o (← key))
      | _ => M.fatal
  callee := do
    let b ← x
    if opt && isNullish b then pure none
    else match b with
      | .obj o => do pure (some (← getRef H c (.prop o (← key)), .obj o))
      | _ => M.fatal
  typeofArg := memberVal H c opt x key
  del :=
    if opt then M.fatal
    else do
      match ← x with
      | .obj o => do M.run (H.delete o (← key))
      | _ => M.fatal
  new_ := do constructV H (← memberVal H c opt x key) []

/-- The values an iterator gives, after `acc`: exec.rs 4260–4275 (arguments) and 3387–3415 (array literals, where they
are elements). -/
def drain {A : Type} (g : Val F → A) : Nat → I → List A → M F W (List A)
  | 0, _, _ => fun _ => none
  | n + 1, i, acc => do
    match ← M.run (H.step i) with
    | (none, _) => pure acc
    | (some v, i) => drain g n i (acc ++ [g v])

/-- `eval_update_expression`: exec.rs 4074–4114. -/
def updateOp (pre inc : Bool) (ref : M F W VmRef) : M F W (Val F) := do
  let r ← ref
  let old ← getRef H c r
  match ← toNumericOp H old with
  | .num a => do
    let new := .num (H.num.add a (if inc then H.num.one else H.num.neg H.num.one))
    putRef H c r new
    pure (if pre then new else .num a)
  | .big i => do
    let new ← bigOr H (i + if inc then 1 else -1)
    putRef H c r new
    pure (if pre then new else .big i)

/-- The members an object spread copies: exec.rs 3806–3829. -/
def copyKeys (o src : Nat) : List Key → M F W Unit
  | [] => pure ()
  | k :: ks => do
    match ← M.run (H.own src k) with
    | none => copyKeys o src ks
    | some false => copyKeys o src ks
    | some true => do
      let v ← M.run (H.get src k (.obj src))
      if ← M.run (H.define o k v) then copyKeys o src ks else M.fatal

/-- `...x` in an object literal: exec.rs 3796–3829. -/
def spreadInto (o : Nat) : Val F → M F W Unit
  | .undef => pure ()
  | .null => pure ()
  | .obj src => do copyKeys H o src (← M.run (H.ownKeys src))
  | _ => M.fatal

/-- A property of an object literal. -/
def defineIn (o : Nat) (k : Key) (v : Val F) : M F W Unit := do
  if ← M.run (H.define o k v) then pure () else M.fatal

/-- Is the callee the identifier `eval`: exec.rs 4168–4177. -/
def isEval : Expr F P C → Bool
  | .id x => x == ascii "eval"
  | .paren x => isEval x
  | _ => false

mutual
/-- `eval_expr`, with the other ways in which the evaluator looks at a node.  `n` bounds the loops over iterators. -/
def evalN (n : Nat) : Expr F P C → Node F W
  | .this_ => plainNode H (pure c.this)
  | .newTarget => plainNode H (pure c.newTarget)
  | .null => plainNode H (pure .null)
  | .bool b => plainNode H (pure (.bool b))
  | .num a => plainNode H (pure (.num a))
  -- `eval_lit_bigint`: exec.rs 3164–3170
  | .big i => plainNode H (if i < 2 ^ 128 then pure (.big i) else M.fatal)
  | .str s => plainNode H (pure (.str s))
  -- `eval_lit_template`: exec.rs 3176–3210
  | .template ps => plainNode H (do pure (.str (← evalT n ps [])))
  -- `eval_lit_arr`: exec.rs 3379–3452
  | .arr es => plainNode H (do M.run (H.array (← evalE n es [])))
  -- `eval_lit_obj`: exec.rs 3454–3835
  | .object ms => plainNode H (do
      let o ← M.run H.object
      evalO n o ms
      pure (.obj o))
  -- exec.rs 2995–3160
  | .func _ f => plainNode H (M.run (H.closure c f none))
  | .id x => idNode H c x
  | .paren x => evalN n x
  | .member opt x name => memberNode H c opt (evalN n x).val (pure (.str name))
  | .index opt x y => memberNode H c opt (evalN n x).val (do toPropertyKey H (← (evalN n y).val))
  -- `eval_call`: exec.rs 4157–4290
  | .call opt f as =>
    { plainNode H (if !opt && isEval f then M.fatal else do
        match ← (evalN n f).callee with
        | none => pure .undef
        | some (g, this) =>
          if opt && isNullish g then pure .undef
          else do callV H g this (← evalA n as [])) with
      new_ := do
        let g ← (evalN n f).val
        constructV H g (← evalA n as []) }
  | .new_ x => plainNode H (evalN n x).new_
  | .unary op x => plainNode H (do unOp H op (← (evalN n x).val))
  | .typeof_ x => plainNode H (do typeofName H (← (evalN n x).typeofArg))
  | .delete_ x => plainNode H (do pure (.bool (← (evalN n x).del)))
  | .update pre inc x => plainNode H (updateOp H c pre inc (evalN n x).ref)
  -- exec.rs 4340–4374
  | .assign x y => plainNode H (do
      let r ← (evalN n x).ref
      let v ← (evalN n y).val
      putRef H c r v
      pure v)
  | .assignPat p y => plainNode H (do
      let v ← (evalN n y).val
      M.run (H.bindPat c p v)
      pure v)
  -- exec.rs 4375–4395
  | .addAssign x y => plainNode H (do
      let r ← (evalN n x).ref
      let a ← getRef H c r
      let b ← (evalN n y).val
      let v ← addOp H a b
      putRef H c r v
      pure v)
  | .and x y => plainNode H (do
      let a ← (evalN n x).val
      if !toBoolean H a then pure a else (evalN n y).val)
  | .or x y => plainNode H (do
      let a ← (evalN n x).val
      if toBoolean H a then pure a else (evalN n y).val)
  | .nullish x y => plainNode H (do
      let a ← (evalN n x).val
      if isNullish a then (evalN n y).val else pure a)
  | .binary op x y => plainNode H (do
      let a ← (evalN n x).val
      let b ← (evalN n y).val
      binOp H n op a b)
  -- `eval_cond`: exec.rs 4331–4338
  | .cond x y z => plainNode H (do
      if toBoolean H (← (evalN n x).val) then (evalN n y).val else (evalN n z).val)
  -- exec.rs 4040, 4539: unimplemented
  | .arith _ _ _ => plainNode H M.fatal
  | .bitNot _ => plainNode H M.fatal
  | .comma _ _ => plainNode H M.fatal
  | .other => plainNode H M.fatal

/-- The arguments: exec.rs 4253–4285. -/
def evalA (n : Nat) : Args F P C → List (Val F) → M F W (List (Val F))
  | .nil, acc => pure acc
  | .cons x as, acc => do
    let v ← (evalN n x).val
    evalA n as (acc ++ [v])
  | .spread x as, acc => do
    let v ← (evalN n x).val
    let i ← M.run (H.iter v)
    evalA n as (← drain H (fun v => v) n i acc)

/-- The elements of an array literal: exec.rs 3392–3438. -/
def evalE (n : Nat) : Elems F P C → List (Option (Val F)) → M F W (List (Option (Val F)))
  | .nil, acc => pure acc
  | .hole es, acc => evalE n es (acc ++ [none])
  | .cons x es, acc => do
    let v ← (evalN n x).val
    evalE n es (acc ++ [some v])
  | .spread x es, acc => do
    let v ← (evalN n x).val
    let i ← M.run (H.iter v)
    evalE n es (← drain H some n i acc)

/-- The parts of a template: exec.rs 3183–3206. -/
def evalT (n : Nat) : Parts F P C → Str → M F W Str
  | .nil, acc => pure acc
  | .text s ps, acc => evalT n ps (acc ++ s)
  | .subst x ps, acc => do
    let v ← (evalN n x).val
    evalT n ps (acc ++ (← toStringOp H v))

/-- The members of an object literal: exec.rs 3467–3832. -/
def evalO (n : Nat) (o : Nat) : Members F P C → M F W Unit
  | .nil => pure ()
  | .prop k x ms => do
    let v ← (evalN n x).val
    defineIn H o (.str k) v
    evalO n o ms
  | .computed k x ms => do
    let kv ← (evalN n k).val
    let key ← toPropertyKey H kv
    let v ← (evalN n x).val
    defineIn H o key v
    evalO n o ms
  | .method d k f ms => do
    M.run (H.method c d o (.str k) f)
    evalO n o ms
  | .computedMethod d k f ms => do
    let kv ← (evalN n k).val
    let key ← toPropertyKey H kv
    M.run (H.method c d o key f)
    evalO n o ms
  | .shorthand x ms => do
    let v ← readName H c x
    defineIn H o (.str x) v
    evalO n o ms
  | .spread x ms => do
    let v ← (evalN n x).val
    spreadInto H o v
    evalO n o ms
end

/-- `eval_expr`: exec.rs 2818–2852. -/
def evalX (n : Nat) (x : Expr F P C) : M F W (Val F) := (evalN H c n x).val

end

end Verif.Expr
