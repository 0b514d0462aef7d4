import Verif.Expr.Full
/-!
# A small host

For the examples and for the programs on which the interpreter differs from ECMA-262.
-/

namespace Verif.Expr.Toy
open Verif.Exec (Out)

/-- Decimal digits, after `a`. -/
def digits (a : Nat) : Str → Option Nat
  | [] => some a
  | d :: s => if 48 ≤ d ∧ d ≤ 57 then digits (10 * a + (d - 48)) s else none

/-- The integers and NaN. -/
def num : Num (Option Int) where
  nan := none
  zero := some 0
  one := some 1
  cmp a b := match a, b with
    | some a, some b => some (compare a b)
    | _, _ => none
  cmp_swap a b := by
    cases a <;> cases b <;> simp [Int.compare_swap]
  cmp_zero a := by cases a <;> simp
  add a b := match a, b with
    | some a, some b => some (a + b)
    | _, _ => none
  sub a b := match a, b with
    | some a, some b => some (a - b)
    | _, _ => none
  mul a b := match a, b with
    | some a, some b => some (a * b)
    | _, _ => none
  div a b := match a, b with
    | some a, some b => some (a / b)
    | _, _ => none
  rem a b := match a, b with
    | some a, some b => some (a.tmod b)
    | _, _ => none
  neg a := a.map fun a => -a
  sub_eq a b := by cases a <;> cases b <;> simp [Int.sub_eq_add_neg]
  ofStr s := (digits 0 s).map Int.ofNat
  toStr a := match a with
    | some a => ascii (toString a)
    | none => ascii "NaN"
  cmpBig i a := match a with
    | some a => some (compare i a)
    | none => none
  bigOfStr s := (digits 0 s).map Int.ofNat
  bigToStr i := ascii (toString i)
  arith _ _ _ := none
  bitNot a := a.map fun a => -a - 1
  bigArith _ _ _ := none

abbrev V := Val (Option Int)

/-- Variables, properties, functions with their code, prototypes, and the next object. -/
structure World (F : Type) where
  vars : List (Str × Val F)
  props : List ((Nat × Key) × Val F)
  funs : List (Nat × Nat)
  protos : List (Nat × Nat)
  next : Nat
deriving DecidableEq

/-- Set an entry of a table. -/
def put {A B : Type} [DecidableEq A] (a : A) (b : B) (l : List (A × B)) : List (A × B) :=
  (a, b) :: l.filter fun p => p.1 ≠ a

/-- A new object. -/
def alloc {F : Type} (w : World F) : Nat × World F := (w.next, { w with next := w.next + 1 })

/-- Objects have properties; those called `fixed` cannot be deleted and those called `const` cannot be set.  A function
gives back its first argument (code 0), its `this` (code 1), or sets the variable `x` (code 2); functions with the code
3 are no constructors. -/
def hostOf {F : Type} (num : Num F) (ofInt : Int → F) : Host F Unit Bool (List (Val F)) Str Nat (World F) where
  num := num
  fits _ := true
  error k w := (.str (match k with
    | .type => ascii "TypeError"
    | .reference => ascii "ReferenceError"
    | .range => ascii "RangeError"), w)
  toPrimitive := 0
  hasInstance := 1
  resolve _ x w := (w.vars.lookup x).isSome
  unresolvable r := !r
  read _ x w := (.ok ((w.vars.lookup x).getD .undef), w)
  write r x strict v w :=
    if !r && strict then (.throw (.str (ascii "ReferenceError")), w)
    else (.ok (), { w with vars := put x v w.vars })
  remove _ _ w := (.ok false, w)
  box _ w := (.ok (alloc w).1, (alloc w).2)
  get o k _ w := (.ok ((w.props.lookup (o, k)).getD .undef), w)
  set o k v _ w :=
    if k = .str (ascii "const") then (.ok false, w)
    else (.ok true, { w with props := put (o, k) v w.props })
  has o k w := (.ok (w.props.lookup (o, k)).isSome, w)
  delete o k w :=
    if k = .str (ascii "fixed") then (.ok false, w)
    else (.ok true, { w with props := w.props.filter fun p => p.1 ≠ (o, k) })
  define o k v w := (.ok true, { w with props := put (o, k) v w.props })
  setProto o v w := match v with
    | .obj p => (.ok (), { w with protos := put o p w.protos })
    | _ => (.ok (), w)
  ownKeys o w := (.ok ((w.props.filter fun p => p.1.1 = o).map fun p => p.1.2), w)
  own o k w := (.ok ((w.props.lookup (o, k)).map fun _ => true), w)
  callable o w := (w.funs.lookup o).isSome
  constructor o w := (w.funs.lookup o).any (· != 3)
  bound _ _ := none
  protos o w := ((w.protos.lookup o).map fun p => [p]).getD []
  call o this as w := match w.funs.lookup o with
    | some 0 => (.ok (as.head?.getD .undef), w)
    | some 1 => (.ok this, w)
    | some 2 => (.ok (.num (ofInt 5)), { w with vars := put (ascii "x") (.num (ofInt 7)) w.vars })
    | _ => (.ok .undef, w)
  construct o as w := (.ok (.obj w.next), { w with
    next := w.next + 1
    props := put (w.next, .str (ascii "made")) (.obj o) (put (w.next, .str (ascii "count")) (.num (ofInt as.length)) w.props) })
  array es w := (.ok (.obj w.next), { w with
    next := w.next + 1
    props := put (w.next, .str (ascii "length")) (.num (ofInt es.length)) w.props })
  object w := (.ok (alloc w).1, (alloc w).2)
  closure _ f name w := (.ok (.obj w.next), { w with
    next := w.next + 1
    funs := put w.next f w.funs
    props := put (w.next, .str (ascii "name")) (.str (name.getD [])) w.props })
  method _ _ o k f w := (.ok (), { w with
    next := w.next + 1
    funs := put w.next f w.funs
    props := put (o, k) (.obj w.next) w.props })
  bindPat _ x v w := (.ok (), { w with vars := put x v w.vars })
  iter v w := match v with
    | .str s => (.ok (s.map fun d => .str [d]), w)
    | _ => (.throw (.str (ascii "TypeError")), w)
  step i w := match i with
    | [] => (.ok (none, []), w)
    | v :: i => (.ok (some v, i), w)

/-- The host with integers. -/
def host : Host (Option Int) Unit Bool (List V) Str Nat (World (Option Int)) := hostOf num some

/-- The object 0 is a global object of sorts; 1 to 4 are functions, of which 4 is no constructor. -/
def worldOf {F : Type} (ofInt : Int → F) : World F where
  vars := [(ascii "id", .obj 1), (ascii "self", .obj 2), (ascii "setx", .obj 3), (ascii "arrow", .obj 4),
    (ascii "o", .obj 0), (ascii "a", .str (ascii "10")), (ascii "b", .str (ascii "9")), (ascii "u", .undef),
    (ascii "hasInstance", .sym 1)]
  props := [((0, .str (ascii "p")), .num (ofInt 1)), ((0, .str (ascii "self")), .obj 2),
    ((0, .str (ascii "fixed")), .num (ofInt 2)), ((1, .str (ascii "prototype")), .obj 0)]
  funs := [(1, 0), (2, 1), (3, 2), (4, 3)]
  protos := [(5, 0)]
  next := 10

/-- The world with integers. -/
def world : World (Option Int) := worldOf some

/-- Strict code, or not. -/
def ctx (strict : Bool) : Ctx (Option Int) Unit := ⟨(), .undef, .undef, strict⟩

abbrev X := Expr (Option Int) Str Nat

/-- What an expression evaluates to: in the interpreter… -/
def vm (strict : Bool) (x : X) : Option (Out V V × World (Option Int)) := evalX host (ctx strict) 20 x world

/-- …and in ECMA-262. -/
def ecma (strict : Bool) (x : X) : Option (Out V V × World (Option Int)) := Ecma.value host (ctx strict) true 20 x world

/-- Are none of the cases met that are left out? -/
def covered (strict : Bool) (x : X) : Bool :=
  match Ecma.value host (ctx strict) false 20 x world with
  | some (.fatal, _) => false
  | _ => true

/-- A name. -/
def v (x : String) : X := .id (ascii x)

/-- A number. -/
def i (a : Int) : X := .num (some a)

/-- `x.name`. -/
def dot (x : X) (name : String) : X := .member false x (ascii name)

end Verif.Expr.Toy
